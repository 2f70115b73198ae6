import Verif.Props.FlattenExact
import Verif.Props.Flatten
import Verif.Props.LieExamples
import Verif.Props.LieGroups
import Verif.Props.OCPNLPExamples

/-! # Examples for the flattening, and references with an acceleration, for which its derivatives are wrong (C35, C36, C75-C78) -/

namespace Verif.Flatten

open Verif.Sparse Verif.Lie Verif.MeshFn Verif.NLP Verif.QP

open scoped Matrix


/-! ### Functions on groups from functions of coordinates -/

section

variable {X U : Type*} {nx nu nq nf : ℕ}

/-- A function of the coordinates `c`. -/
noncomputable def gOf (c : ℝ → X → U → Arg nx nu → ℝ) (φ : (Arg nx nu → ℝ) → Fin nf → ℝ) : GFn X U ℝ nf where
  val t x u := φ (c t x u)
  jac t x u := (drOf φ).jac (c t x u)
  hess t x u := (drOf φ).hess (c t x u)

noncomputable def gOfE (c : ℝ → X → X → (Fin nq → ℝ) → EArg nx nq → ℝ) (φ : (EArg nx nq → ℝ) → Fin nf → ℝ) : GEFn X ℝ nq nf where
  val t x y q := φ (c t x y q)
  jac t x y q := (drE φ).jac (c t x y q)
  hess t x y q := (drE φ).hess (c t x y q)

theorem pd_shift {ι : Type*} [Fintype ι] [DecidableEq ι] {φ : (ι → ℝ) → ℝ} {r : ι → ℝ} (h : ∀ w, φ (w + r) = φ w) (a : ι) (w : ι → ℝ) :
    pd φ a (w + r) = pd φ a w := by
  have e : (fun w => φ (w + r)) = φ := funext h
  have h1 : fderiv ℝ (fun w => φ (w + r)) w = fderiv ℝ φ (w + r) := fderiv_comp_add_right r
  rw [e] at h1
  unfold pd
  rw [h1]

theorem hasMv_of_shift {P B : Type*} [Fintype B] [DecidableEq B] {mv : P → (B → ℝ) → P} {c : P → B → ℝ} {g : P → ℝ} {φ : (B → ℝ) → ℝ} {p : P}
    (hg : ∀ δ, g (mv p δ) = φ (c p + δ)) (hφ : DifferentiableAt ℝ φ (c p)) : HasMv mv g (fun a => pd φ a (c p)) p := by
  have h1 : HasFDerivAt (fun δ => φ (c p + δ)) (fderiv ℝ φ (c p)) 0 := by
    have h2 : HasFDerivAt φ (fderiv ℝ φ (c p)) (c p + 0) := by rw [add_zero]; exact hφ.hasFDerivAt
    have h3 : HasFDerivAt (fun δ : B → ℝ => c p + δ) (ContinuousLinearMap.id ℝ _) 0 := (hasFDerivAt_id (0 : B → ℝ)).const_add (c p)
    have := h2.comp (0 : B → ℝ) h3
    rwa [ContinuousLinearMap.comp_id] at this
  refine ⟨_, ?_, fun k => rfl⟩
  have e : (fun δ => g (mv p δ)) = fun δ => φ (c p + δ) := funext hg
  rw [e]
  exact h1

theorem pd_diff {ι : Type*} [Fintype ι] [DecidableEq ι] {φ : (ι → ℝ) → ℝ} (h : ContDiff ℝ 2 φ) (a : ι) : ContDiff ℝ 1 (pd φ a) := by
  have h1 : ContDiff ℝ 1 (fderiv ℝ φ) := h.fderiv_right (by norm_num)
  exact h1.clm_apply contDiff_const

theorem pd_cont {ι : Type*} [Fintype ι] [DecidableEq ι] {φ : (ι → ℝ) → ℝ} (h : ContDiff ℝ 1 φ) (a : ι) : Continuous (pd φ a) := by
  have h1 : ContDiff ℝ 0 (fderiv ℝ φ) := h.fderiv_right (by norm_num)
  exact (h1.clm_apply contDiff_const).continuous

/-- If moves are additions to the coordinates, up to changes that do not matter, then the derivatives are right. -/
theorem gOf_isDrG {LX : LieOps X ℝ nx} {LU : LieOps U ℝ nu} {c : ℝ → X → U → Arg nx nu → ℝ} {φ : (Arg nx nu → ℝ) → Fin nf → ℝ}
    (hφ : ∀ j, ContDiff ℝ 2 fun p => φ p j)
    (hc : ∀ p δ, ∃ r, c (move LX LU p δ).1 (move LX LU p δ).2.1 (move LX LU p δ).2.2 = c p.1 p.2.1 p.2.2 + δ + r ∧ ∀ w, φ (w + r) = φ w) :
    IsDrG LX LU (gOf c φ) := by
  have hd := drOf_isDr hφ
  have e1 : ∀ p δ (j : Fin nf) (a : Arg nx nu), ((drOf φ).jac (c (move LX LU p δ).1 (move LX LU p δ).2.1 (move LX LU p δ).2.2)).val j a.pos =
      pd (fun p => φ p j) a (c p.1 p.2.1 p.2.2 + δ) := by
    intro p δ j a
    obtain ⟨r, h1, h2⟩ := hc p δ
    rw [hd.jac_val, h1]
    exact pd_shift (fun w => congrFun (h2 w) j) a _
  have e2 : ∀ p δ (j : Fin nf) (a b : Arg nx nu), ((drOf φ).hess (c (move LX LU p δ).1 (move LX LU p δ).2.1 (move LX LU p δ).2.2)).val a.pos ((1 + nx + nu) * j + b.pos) =
      pd (pd (fun p => φ p j) a) b (c p.1 p.2.1 p.2.2 + δ) := by
    intro p δ j a b
    obtain ⟨r, h1, h2⟩ := hc p δ
    rw [hd.hess_val, h1]
    exact pd_shift (fun w => pd_shift (fun w => congrFun (h2 w) j) a w) b _
  refine ⟨fun _ _ _ => rfl, fun _ _ _ => rfl, fun _ _ _ => rfl, fun _ _ _ => rfl, fun p j => ?_, fun p j a => ?_, fun p j a b => ?_⟩
  · have := hasMv_of_shift (mv := move LX LU) (c := fun p => c p.1 p.2.1 p.2.2) (g := fun p => φ (c p.1 p.2.1 p.2.2) j) (φ := fun p => φ p j) (p := p)
      (fun δ => by obtain ⟨r, h1, h2⟩ := hc p δ; rw [h1, h2]) ((hφ j).differentiable (by norm_num) _)
    obtain ⟨D, k1, k2⟩ := this
    exact ⟨D, k1, fun a => (k2 a).trans (hd.jac_val _ j a).symm⟩
  · have := hasMv_of_shift (mv := move LX LU) (c := fun p => c p.1 p.2.1 p.2.2) (g := fun p => ((drOf φ).jac (c p.1 p.2.1 p.2.2)).val j a.pos)
      (φ := pd (fun p => φ p j) a) (p := p) (fun δ => e1 p δ j a) ((pd_diff (hφ j) a).differentiable (by norm_num) _)
    obtain ⟨D, k1, k2⟩ := this
    exact ⟨D, k1, fun b => (k2 b).trans (hd.hess_val _ j a b).symm⟩
  · have e : (fun δ => ((drOf φ).hess (c (move LX LU p δ).1 (move LX LU p δ).2.1 (move LX LU p δ).2.2)).val a.pos ((1 + nx + nu) * j + b.pos)) =
        fun δ => pd (pd (fun p => φ p j) a) b (c p.1 p.2.1 p.2.2 + δ) := funext fun δ => e2 p δ j a b
    change ContinuousAt (fun δ => ((drOf φ).hess (c (move LX LU p δ).1 (move LX LU p δ).2.1 (move LX LU p δ).2.2)).val a.pos ((1 + nx + nu) * j + b.pos)) 0
    rw [e]
    exact ((pd_cont (pd_diff (hφ j) a) b).comp (continuous_const.add continuous_id)).continuousAt

theorem gOfE_isDrGE {L : LieOps X ℝ nx} {c : ℝ → X → X → (Fin nq → ℝ) → EArg nx nq → ℝ} {φ : (EArg nx nq → ℝ) → Fin nf → ℝ}
    (hφ : ∀ j, ContDiff ℝ 2 fun p => φ p j)
    (hc : ∀ p δ, ∃ r, c (moveE L p δ).1 (moveE L p δ).2.1 (moveE L p δ).2.2.1 (moveE L p δ).2.2.2 = c p.1 p.2.1 p.2.2.1 p.2.2.2 + δ + r ∧ ∀ w, φ (w + r) = φ w) :
    IsDrGE L (gOfE c φ) := by
  have hd := drE_isDr hφ
  have e1 : ∀ p δ (j : Fin nf) (a : EArg nx nq), ((drE φ).jac (c (moveE L p δ).1 (moveE L p δ).2.1 (moveE L p δ).2.2.1 (moveE L p δ).2.2.2)).val j a.pos =
      pd (fun p => φ p j) a (c p.1 p.2.1 p.2.2.1 p.2.2.2 + δ) := by
    intro p δ j a
    obtain ⟨r, h1, h2⟩ := hc p δ
    rw [hd.jac_val, h1]
    exact pd_shift (fun w => congrFun (h2 w) j) a _
  have e2 : ∀ p δ (j : Fin nf) (a b : EArg nx nq), ((drE φ).hess (c (moveE L p δ).1 (moveE L p δ).2.1 (moveE L p δ).2.2.1 (moveE L p δ).2.2.2)).val a.pos ((1 + 2 * nx + nq) * j + b.pos) =
      pd (pd (fun p => φ p j) a) b (c p.1 p.2.1 p.2.2.1 p.2.2.2 + δ) := by
    intro p δ j a b
    obtain ⟨r, h1, h2⟩ := hc p δ
    rw [hd.hess_val, h1]
    exact pd_shift (fun w => pd_shift (fun w => congrFun (h2 w) j) a w) b _
  refine ⟨fun _ _ _ _ => rfl, fun _ _ _ _ => rfl, fun _ _ _ _ => rfl, fun _ _ _ _ => rfl, fun p j => ?_, fun p j a => ?_, fun p j a b => ?_⟩
  · have := hasMv_of_shift (mv := moveE L) (c := fun p => c p.1 p.2.1 p.2.2.1 p.2.2.2) (g := fun p => φ (c p.1 p.2.1 p.2.2.1 p.2.2.2) j) (φ := fun p => φ p j) (p := p)
      (fun δ => by obtain ⟨r, h1, h2⟩ := hc p δ; rw [h1, h2]) ((hφ j).differentiable (by norm_num) _)
    obtain ⟨D, k1, k2⟩ := this
    exact ⟨D, k1, fun a => (k2 a).trans (hd.jac_val _ j a).symm⟩
  · have := hasMv_of_shift (mv := moveE L) (c := fun p => c p.1 p.2.1 p.2.2.1 p.2.2.2) (g := fun p => ((drE φ).jac (c p.1 p.2.1 p.2.2.1 p.2.2.2)).val j a.pos)
      (φ := pd (fun p => φ p j) a) (p := p) (fun δ => e1 p δ j a) ((pd_diff (hφ j) a).differentiable (by norm_num) _)
    obtain ⟨D, k1, k2⟩ := this
    exact ⟨D, k1, fun b => (k2 b).trans (hd.hess_val _ j a b).symm⟩
  · have e : (fun δ => ((drE φ).hess (c (moveE L p δ).1 (moveE L p δ).2.1 (moveE L p δ).2.2.1 (moveE L p δ).2.2.2)).val a.pos ((1 + 2 * nx + nq) * j + b.pos)) =
        fun δ => pd (pd (fun p => φ p j) a) b (c p.1 p.2.1 p.2.2.1 p.2.2.2 + δ) := funext fun δ => e2 p δ j a b
    change ContinuousAt (fun δ => ((drE φ).hess (c (moveE L p δ).1 (moveE L p δ).2.1 (moveE L p δ).2.2.1 (moveE L p δ).2.2.2)).val a.pos ((1 + 2 * nx + nq) * j + b.pos)) 0
    rw [e]
    exact ((pd_cont (pd_diff (hφ j) a) b).comp (continuous_const.add continuous_id)).continuousAt

end

/-! ### A problem on the Heisenberg group -/

def exTheta (p : EArg 3 1 → ℝ) (_ : Fin 1) : ℝ := p (.q 0)
def exF3 (p : Arg 3 1 → ℝ) : Fin 3 → ℝ := ![1, p (.u 0), p (.x 0) * p (.u 0)]
def exG1 (p : Arg 3 1 → ℝ) (_ : Fin 1) : ℝ := p (.u 0) * p (.u 0)
def exCr (p : Arg 3 1 → ℝ) (_ : Fin 1) : ℝ := p (.u 0)
def exCe (p : EArg 3 1 → ℝ) : Fin 2 → ℝ := ![p (.xf 0), p (.xf 1)]

/-- `f = (1, u, x₀ u)`, running cost `u²`, `0 ≤ u ≤ 2`, and the end point has `x₀ = x₁ = 1`. -/
noncomputable def exG : GOCP (Fin 3 → ℝ) (Fin 1 → ℝ) ℝ 3 1 1 2 where
  theta := gOfE ept exTheta
  f := gOf pt exF3
  g := gOf pt exG1
  cr := gOf pt exCr
  crl _ := .fin 0
  cru _ := .fin 2
  ce := gOfE ept exCe
  cel _ := .fin 1
  ceu _ := .fin 1

/-- Adding to `x₂` does not matter. -/
theorem heis_move {nf : ℕ} {φ : (Arg 3 1 → ℝ) → Fin nf → ℝ} (h : ∀ w r, φ (w + Pi.single (.x 2) r) = φ w) (p : ℝ × (Fin 3 → ℝ) × (Fin 1 → ℝ))
    (δ : Arg 3 1 → ℝ) : ∃ r, pt (move heis (vec ℝ 1) p δ).1 (move heis (vec ℝ 1) p δ).2.1 (move heis (vec ℝ 1) p δ).2.2 = pt p.1 p.2.1 p.2.2 + δ + r ∧
      ∀ w, φ (w + r) = φ w := by
  refine ⟨Pi.single (.x 2) (δ (.x 0) * δ (.x 1) / 2 + p.2.1 0 * δ (.x 1)), ?_, fun w => h w _⟩
  funext a
  cases a with
  | t => simp [move, pt]
  | u k => simp [move, pt, vec]
  | x k => fin_cases k <;> simp [move, pt, heis, Pi.single_apply]; ring

theorem heis_moveE {nf : ℕ} {φ : (EArg 3 1 → ℝ) → Fin nf → ℝ} (h : ∀ w r s, φ (w + (Pi.single (.x0 2) r + Pi.single (.xf 2) s)) = φ w)
    (p : ℝ × (Fin 3 → ℝ) × (Fin 3 → ℝ) × (Fin 1 → ℝ)) (δ : EArg 3 1 → ℝ) :
    ∃ r, ept (moveE heis p δ).1 (moveE heis p δ).2.1 (moveE heis p δ).2.2.1 (moveE heis p δ).2.2.2 = ept p.1 p.2.1 p.2.2.1 p.2.2.2 + δ + r ∧
      ∀ w, φ (w + r) = φ w := by
  refine ⟨Pi.single (.x0 2) (δ (.x0 0) * δ (.x0 1) / 2 + p.2.1 0 * δ (.x0 1)) + Pi.single (.xf 2) (δ (.xf 0) * δ (.xf 1) / 2 + p.2.2.1 0 * δ (.xf 1)), ?_,
    fun w => h w _ _⟩
  funext a
  cases a with
  | tf => simp [moveE, ept]
  | q k => simp [moveE, ept]
  | x0 k => fin_cases k <;> simp [moveE, ept, heis, Pi.single_apply]; ring
  | xf k => fin_cases k <;> simp [moveE, ept, heis, Pi.single_apply]; ring

theorem exG_dr : IsDrGOCP heis (vec ℝ 1) exG where
  theta := gOfE_isDrGE (φ := exTheta) (fun j => by unfold exTheta; fun_prop) (heis_moveE fun w r s => by funext j; simp [exTheta])
  f := gOf_isDrG (φ := exF3) (fun j => by unfold exF3; fin_cases j <;> simp <;> fun_prop) (heis_move fun w r => by funext j; fin_cases j <;> simp [exF3])
  g := gOf_isDrG (φ := exG1) (fun j => by unfold exG1; fun_prop) (heis_move fun w r => by funext j; simp [exG1])
  cr := gOf_isDrG (φ := exCr) (fun j => by unfold exCr; fun_prop) (heis_move fun w r => by funext j; simp [exCr])
  ce := gOfE_isDrGE (φ := exCe) (fun j => by unfold exCe; fin_cases j <;> simp <;> fun_prop) (heis_moveE fun w r s => by funext j; fin_cases j <;> simp [exCe])

section

attribute [local instance] Matrix.linftyOpNormedRing Matrix.linftyOpNormedAlgebra Matrix.linftyOpNormedSpace Matrix.linftyOpNormedAddCommGroup

/-- The reference moves along the first axis. -/
def exXl : Traj (Fin 3 → ℝ) ℝ 3 := ⟨fun t => ![t, 0, 0], fun _ => ![1, 0, 0]⟩
def exUl : Traj (Fin 1 → ℝ) ℝ 1 := ⟨fun _ => 0, fun _ => 0⟩

theorem exXl_traj : IsTraj2 heisMat heisHat exXl fun _ => 0 where
  vel t := by
    have e : (fun s => heisMat (exXl.val s)) = fun s => (1 : Matrix (Fin 3) (Fin 3) ℝ) + s • heisHat ![1, 0, 0] := by
      funext s
      ext i j
      fin_cases i <;> fin_cases j <;> simp [heisMat, exXl, heisHat]
    have e2 : heisMat (exXl.val t) * heisHat (exXl.d t) = (1 : ℝ) • heisHat ![1, 0, 0] := by
      ext i j
      fin_cases i <;> fin_cases j <;> simp [heisMat, exXl, heisHat, Matrix.mul_apply, Fin.sum_univ_succ]
    unfold HasVel
    rw [e, e2]
    exact (((hasDerivAt_id (𝕜 := ℝ) t).smul_const (heisHat ![1, 0, 0])).const_add (1 : Matrix (Fin 3) (Fin 3) ℝ)).hasDerivWithinAt
  acc t := hasDerivAt_const t _

theorem exUl_traj : IsTraj2 (vecMat 1) (vecHat 1) exUl fun _ => 0 where
  vel t := by
    have e2 : vecMat 1 (exUl.val t) * vecHat 1 (exUl.d t) = 0 := by simp [exUl]
    unfold HasVel
    rw [e2]
    exact hasDerivWithinAt_const (𝕜 := ℝ) (F := TrivSqZeroExt ℝ (Fin 1 → ℝ)) t Set.univ (vecMat 1 0)
  acc t := hasDerivAt_const t _

theorem heis_nil (e : Fin 3 → ℝ) : (heis (F := ℝ)).ad e ^ 24 = 0 := by
  have h : (heis (F := ℝ)).ad e ^ 2 = 0 := by
    rw [pow_two]
    ext i j
    fin_cases i <;> fin_cases j <;> simp [heis, heisAd, Matrix.mul_apply, Fin.sum_univ_succ]
  rw [show (24 : ℕ) = 2 * 12 by norm_num, pow_mul, h, zero_pow (by norm_num)]

/-- All derivatives of the flattened problem are right. -/
theorem exG_flat : IsDrOCP (flattenOCP heis (vec ℝ 1) exG exXl exUl) := flatten_exact_partial heis_isLie (vec_isLie 1) exG_dr exXl_traj exUl_traj heis_nil

theorem exG_flatAdmissible : FlatAdmissible (flattenOCP heis (vec ℝ 1) exG exXl exUl) 1 (fun t => ![0, t, 0]) (fun _ => ![1]) ![1] where
  dynamics t _ := by
    have e : (flattenOCP heis (vec ℝ 1) exG exXl exUl).f.val (pt t ![0, t, 0] ![1]) = ![0, 1, 0] := by
      change dynVal heis (vec ℝ 1) exG.f exXl exUl t ![0, t, 0] ![1] = _
      funext i
      fin_cases i <;> simp [dynVal, exG, gOf, exF3, heis, heisAd, exXl, exUl, vec, pt, innerVal, Matrix.mulVec, dotProduct, Fin.sum_univ_succ]
    rw [e, hasDerivWithinAt_pi]
    intro i
    fin_cases i
    · exact hasDerivWithinAt_const _ _ _
    · exact hasDerivWithinAt_id _ _
    · exact hasDerivWithinAt_const _ _ _
  integrals k := by
    have e : ∀ t : ℝ, (flattenOCP heis (vec ℝ 1) exG exXl exUl).g.val (pt t ![0, t, 0] ![1]) k = 1 := by
      intro t
      change innerVal heis (vec ℝ 1) exG.g exXl exUl t ![0, t, 0] ![1] k = 1
      simp [innerVal, exG, gOf, exG1, pt, vec, exUl]
    simp only [e]
    fin_cases k
    simp
  running t _ k := by
    have e : (flattenOCP heis (vec ℝ 1) exG exXl exUl).cr.val (pt t ![0, t, 0] ![1]) k = 1 := by
      change innerVal heis (vec ℝ 1) exG.cr exXl exUl t ![0, t, 0] ![1] k = 1
      simp [innerVal, exG, gOf, exCr, pt, vec, exUl]
    rw [e]
    constructor <;> simp [flattenOCP, exG, Verif.QPSpec.lower, Verif.QPSpec.upper]
  endpoint k := by
    have e : (flattenOCP heis (vec ℝ 1) exG exXl exUl).ce.val (ept 1 ![0, 0, 0] ![0, 1, 0] ![1]) k = 1 := by
      change endptVal heis exG.ce exXl 1 ![0, 0, 0] ![0, 1, 0] ![1] k = 1
      fin_cases k <;> simp [endptVal, exG, gOfE, exCe, ept, heis, exXl]
    rw [e]
    constructor <;> simp [flattenOCP, exG, Verif.QPSpec.lower, Verif.QPSpec.upper]

/-- `flatten_equivalent` applies: `x = (t, t, t²)`, `u = 1` is admissible for the problem on the group, with cost 1. -/
example : Admissible exG heisMat heisHat 1 (fun s => (heis (F := ℝ)).rplus (exXl.val s) ![0, s, 0]) (fun s => (vec ℝ 1).rplus (exUl.val s) ![1]) ![1] ∧
    cost exG 1 (fun s => (heis (F := ℝ)).rplus (exXl.val s) ![0, s, 0]) ![1] = 1 ∧ (heis (F := ℝ)).rplus (exXl.val 1) ![0, 1, 0] = ![1, 1, 1] := by
  have h := flatten_equivalent (LU := vec ℝ 1) heis_isLie exG exXl exUl 1 (fun t => ![0, t, 0]) (fun _ => ![1]) ![1]
    (fun t _ => (exXl_traj.vel t).mono (Set.subset_univ _)) (fun t _ => heis_drExp_det _)
    (fun t ht => (exG_flatAdmissible.dynamics t ht).continuousWithinAt)
  refine ⟨h.1.2 exG_flatAdmissible, ?_, ?_⟩
  · simp [cost, exG, gOfE, exTheta, ept]
  · funext i
    fin_cases i <;> simp [heis, exXl]

/-- The hypotheses of `dr_expinv_series` hold for all invertible 2 by 2 matrices: the logarithm may have any norm below `π`. -/
example (a : Fin 4 → ℝ) (ha : ‖glHat gl2Basis a‖ < Real.pi) : IsUnit ((gl gl2Basis).drExp a).det := by
  refine (dr_expinv_series (gl_isLie gl2Basis) gl2Basis.equivFun.symm a (r := 2 * ‖glHat gl2Basis a‖) (by positivity) (fun v => ?_) (by linarith)).1
  have e := (gl_isLie gl2Basis).ad a v
  change ‖glHat gl2Basis _‖ ≤ _ * ‖glHat gl2Basis v‖
  rw [e]
  refine le_trans (norm_sub_le _ _) (le_trans (add_le_add (norm_mul_le _ _) (norm_mul_le _ _)) (le_of_eq (by ring)))

end

/-! ### References with an acceleration -/

/-- `xl(t) = t² / 2`. -/
noncomputable def accXl : Traj (Fin 1 → ℝ) ℝ 1 := ⟨fun t _ => t ^ 2 / 2, fun t _ => t⟩

theorem accXl_traj : IsTraj2 (vecMat 1) (vecHat 1) accXl fun _ _ => 1 where
  vel t := by
    have e2 : vecMat 1 (accXl.val t) * vecHat 1 (accXl.d t) = vecHat 1 (accXl.d t) := by
      change (1 + TrivSqZeroExt.inr (accXl.val t)) * TrivSqZeroExt.inr (accXl.d t) = _
      rw [add_mul, one_mul, TrivSqZeroExt.inr_mul_inr, add_zero]
      rfl
    unfold HasVel
    rw [e2]
    have h1 : HasDerivAt accXl.val (accXl.d t) t := by
      rw [hasDerivAt_pi]
      intro i
      have := ((hasDerivAt_id t).pow 2).div_const 2
      refine this.congr_deriv ?_
      simp [accXl]
    have h2 := ((LinearMap.toContinuousLinearMap (vecHat 1)).hasFDerivAt.comp_hasDerivAt t h1).const_add (1 : TrivSqZeroExt ℝ (Fin 1 → ℝ))
    exact h2.hasDerivWithinAt
  acc t := by
    rw [hasDerivAt_pi]
    intro i
    exact hasDerivAt_id t

theorem vec_move {nf : ℕ} {φ : (Arg 1 1 → ℝ) → Fin nf → ℝ} (p : ℝ × (Fin 1 → ℝ) × (Fin 1 → ℝ)) (δ : Arg 1 1 → ℝ) :
    ∃ r, pt (move (vec ℝ 1) (vec ℝ 1) p δ).1 (move (vec ℝ 1) (vec ℝ 1) p δ).2.1 (move (vec ℝ 1) (vec ℝ 1) p δ).2.2 = pt p.1 p.2.1 p.2.2 + δ + r ∧
      ∀ w, φ (w + r) = φ w := by
  refine ⟨0, ?_, fun w => by rw [add_zero]⟩
  funext a
  cases a <;> simp [move, pt, vec]

/-- `f(t, x, u) = x`. -/
def exId (p : Arg 1 1 → ℝ) (_ : Fin 1) : ℝ := p (.x 0)

theorem exId_dr : IsDrG (vec ℝ 1) (vec ℝ 1) (gOf pt exId) := gOf_isDrG (φ := exId) (fun j => by unfold exId; fun_prop) vec_move

theorem accId_both (p : Arg 1 1 → ℝ) : ((flatInner (vec ℝ 1) (vec ℝ 1) (gOf pt exId) accXl exUl).hess p).val 0 0 = 0 ∧
    pd (pd (fun p => (flatInner (vec ℝ 1) (vec ℝ 1) (gOf pt exId) accXl exUl).val p 0) .t) .t p = 1 := by
  have e0 : (fun p : Arg 1 1 → ℝ => (flatInner (vec ℝ 1) (vec ℝ 1) (gOf pt exId) accXl exUl).val p 0) = fun p => p .t * p .t * 2⁻¹ + p (.x 0) := by
    funext p
    change p .t ^ 2 / 2 + p (.x 0) = _
    ring
  have h1 : ∀ p : Arg 1 1 → ℝ, HasPd (fun p : Arg 1 1 → ℝ => p .t * p .t * 2⁻¹ + p (.x 0)) _ p := fun p =>
    (((hasPd_coord .t p).mul (hasPd_coord .t p)).mul (hasPd_const 2⁻¹ p)).add (hasPd_coord (.x 0) p)
  have e1 : pd (fun p => (flatInner (vec ℝ 1) (vec ℝ 1) (gOf pt exId) accXl exUl).val p 0) .t = fun p => p .t := by
    funext p
    rw [e0, (h1 p).pd]
    simp
    ring
  have e2 : pd (pd (fun p => (flatInner (vec ℝ 1) (vec ℝ 1) (gOf pt exId) accXl exUl).val p 0) .t) .t p = 1 := by
    rw [e1, (hasPd_coord Arg.t p).pd]
    simp
  refine ⟨?_, e2⟩
  have h2 := flat_inner_hessian (vec_isLie 1) (vec_isLie 1) exId_dr accXl_traj exUl_traj p 0 .t
  have e3 : (fun p => ((flatInner (vec ℝ 1) (vec ℝ 1) (gOf pt exId) accXl exUl).jac p).val (0 : Fin 1) (Arg.t (nx := 1) (nu := 1)).pos) =
      pd (fun p => (flatInner (vec ℝ 1) (vec ℝ 1) (gOf pt exId) accXl exUl).val p 0) .t :=
    funext fun p => ((flat_inner_jacobian (vec_isLie 1) (vec_isLie 1) exId_dr accXl_traj.vel exUl_traj.vel p 0).pd .t).symm
  rw [e3] at h2
  have h3 := h2.pd .t
  rw [e2, if_pos ⟨rfl, rfl⟩] at h3
  have e4 : ∀ t x u, ((gOf pt exId).jac t x u).val (0 : Fin 1) (1 + (0 : Fin 1)) = 1 := by
    intro t x u
    have := (drOf_isDr (f := exId) fun j => by unfold exId; fun_prop).jac_val (pt t x u) 0 (.x 0)
    refine this.trans ?_
    change pd (fun p : Arg 1 1 → ℝ => p (.x 0)) (.x 0) _ = 1
    rw [(hasPd_coord (Arg.x 0) _).pd]
    simp
  have e5 : ∀ e (v : Fin 1 → ℝ), adVel (vec ℝ 1) e v = v := by
    intro e v
    simp [adVel, vec]
  simp only [Fin.sum_univ_one, e4, e5] at h3
  change (1 : ℝ) = ((flatInner (vec ℝ 1) (vec ℝ 1) (gOf pt exId) accXl exUl).hess p).val 0 0 + _ at h3
  simpa using h3

theorem accId_hess (p : Arg 1 1 → ℝ) : ((flatInner (vec ℝ 1) (vec ℝ 1) (gOf pt exId) accXl exUl).hess p).val 0 0 = 0 := (accId_both p).1

/-- **C75.** The second derivative by time of the flattened function is 1; the Hessian has 0. -/
theorem flat_inner_hessian_wrong : ∃ (f : GFn (Fin 1 → ℝ) (Fin 1 → ℝ) ℝ 1) (xl : Traj (Fin 1 → ℝ) ℝ 1) (ul : Traj (Fin 1 → ℝ) ℝ 1),
    IsDrG (vec ℝ 1) (vec ℝ 1) f ∧ IsTraj2 (vecMat 1) (vecHat 1) xl (fun _ _ => 1) ∧ IsTraj2 (vecMat 1) (vecHat 1) ul (fun _ => 0) ∧
    ∀ p, ((flatInner (vec ℝ 1) (vec ℝ 1) f xl ul).hess p).val 0 0 = 0 ∧
      pd (pd (fun p => (flatInner (vec ℝ 1) (vec ℝ 1) f xl ul).val p 0) .t) .t p = 1 :=
  ⟨gOf pt exId, accXl, exUl, exId_dr, accXl_traj, exUl_traj, accId_both⟩

/-- **C77.** The derivative by time of the flattened dynamics is `t - 1`; the Jacobian has `t`. -/
theorem flat_dyn_jacobian_wrong : ∃ (f : GFn (Fin 1 → ℝ) (Fin 1 → ℝ) ℝ 1) (xl : Traj (Fin 1 → ℝ) ℝ 1) (ul : Traj (Fin 1 → ℝ) ℝ 1),
    IsDrG (vec ℝ 1) (vec ℝ 1) f ∧ IsTraj2 (vecMat 1) (vecHat 1) xl (fun _ _ => 1) ∧ IsTraj2 (vecMat 1) (vecHat 1) ul (fun _ => 0) ∧
    ∀ p, ((flatDyn (vec ℝ 1) (vec ℝ 1) f xl ul).jac p).val 0 0 = p .t ∧ pd (fun p => (flatDyn (vec ℝ 1) (vec ℝ 1) f xl ul).val p 0) .t p = p .t - 1 := by
  refine ⟨gOf pt exId, accXl, exUl, exId_dr, accXl_traj, exUl_traj, fun p => ?_⟩
  have e0 : (fun p : Arg 1 1 → ℝ => (flatDyn (vec ℝ 1) (vec ℝ 1) (gOf pt exId) accXl exUl).val p 0) = fun p => p .t * p .t * 2⁻¹ + p (.x 0) - p .t := by
    funext p
    change dynVal (vec ℝ 1) (vec ℝ 1) (gOf pt exId) accXl exUl (p .t) (fun k => p (.x k)) (fun k => p (.u k)) 0 = _
    simp [dynVal, innerVal, gOf, exId, pt, accXl, vec]
    ring
  have h1 : HasPd (fun p : Arg 1 1 → ℝ => p .t * p .t * 2⁻¹ + p (.x 0) - p .t) _ p :=
    ((((hasPd_coord .t p).mul (hasPd_coord .t p)).mul (hasPd_const 2⁻¹ p)).add (hasPd_coord (.x 0) p)).sub (hasPd_coord .t p)
  have e1 : pd (fun p => (flatDyn (vec ℝ 1) (vec ℝ 1) (gOf pt exId) accXl exUl).val p 0) .t p = p .t - 1 := by
    rw [e0, h1.pd]
    simp
    ring
  refine ⟨?_, e1⟩
  have h2 := (flat_dyn_jacobian (vec_isLie 1) (vec_isLie 1) exId_dr accXl_traj exUl_traj p (by simp [vec]) 0).pd .t
  rw [e1, if_pos rfl] at h2
  change p .t - 1 = ((flatDyn (vec ℝ 1) (vec ℝ 1) (gOf pt exId) accXl exUl).jac p).val 0 0 + _ at h2
  have e2 : ((vec ℝ 1).ad (fun k => p (.x k)) *ᵥ (fun _ => (1 : ℝ)) - (vec ℝ 1).drExpinv (fun k => p (.x k)) *ᵥ (fun _ => (1 : ℝ))) 0 = -1 := by simp [vec]
  rw [e2] at h2
  linarith

/-- **C78.** The second derivative by time of the same dynamics is 1; the Hessian has 0. -/
theorem flat_dyn_hessian_wrong : ∃ (f : GFn (Fin 1 → ℝ) (Fin 1 → ℝ) ℝ 1) (xl : Traj (Fin 1 → ℝ) ℝ 1) (ul : Traj (Fin 1 → ℝ) ℝ 1),
    IsDrG (vec ℝ 1) (vec ℝ 1) f ∧ IsTraj2 (vecMat 1) (vecHat 1) xl (fun _ _ => 1) ∧ IsTraj2 (vecMat 1) (vecHat 1) ul (fun _ => 0) ∧
    ∀ p, ((flatDyn (vec ℝ 1) (vec ℝ 1) f xl ul).hess p).val 0 0 = 0 ∧
      pd (pd (fun p => (flatDyn (vec ℝ 1) (vec ℝ 1) f xl ul).val p 0) .t) .t p = 1 := by
  refine ⟨gOf pt exId, accXl, exUl, exId_dr, accXl_traj, exUl_traj, fun p => ?_⟩
  have e0 : (fun p : Arg 1 1 → ℝ => (flatDyn (vec ℝ 1) (vec ℝ 1) (gOf pt exId) accXl exUl).val p 0) = fun p => p .t * p .t * 2⁻¹ + p (.x 0) - p .t := by
    funext p
    change dynVal (vec ℝ 1) (vec ℝ 1) (gOf pt exId) accXl exUl (p .t) (fun k => p (.x k)) (fun k => p (.u k)) 0 = _
    simp [dynVal, innerVal, gOf, exId, pt, accXl, vec]
    ring
  have h1 : ∀ p, HasPd (fun p : Arg 1 1 → ℝ => p .t * p .t * 2⁻¹ + p (.x 0) - p .t) _ p := fun p =>
    ((((hasPd_coord .t p).mul (hasPd_coord .t p)).mul (hasPd_const 2⁻¹ p)).add (hasPd_coord (.x 0) p)).sub (hasPd_coord .t p)
  have e1 : pd (fun p => (flatDyn (vec ℝ 1) (vec ℝ 1) (gOf pt exId) accXl exUl).val p 0) .t = fun p => p .t - 1 := by
    funext p
    rw [e0, (h1 p).pd]
    simp
    ring
  refine ⟨?_, ?_⟩
  · have h2 := (flatDyn_spec (vec ℝ 1) (vec ℝ 1) exId_dr.shape accXl exUl p).2.2 0 .t .t
    change ((flatDyn (vec ℝ 1) (vec ℝ 1) (gOf pt exId) accXl exUl).hess p).val 0 0 = _ at h2
    have h3 := (flatInner_spec (vec ℝ 1) (vec ℝ 1) exId_dr.shape accXl exUl p).2.2 0 .t .t
    change ((flatInner (vec ℝ 1) (vec ℝ 1) (gOf pt exId) accXl exUl).hess p).val 0 0 = _ at h3
    rw [accId_hess p] at h3
    rw [h2, dynH_eq, Finset.sum_eq_single 0]
    · change cf 0 * innerH _ _ _ _ _ _ _ _ 0 .t .t = 0
      rw [← h3, mul_zero]
    · intro n _ hn
      obtain ⟨n, rfl⟩ := Nat.exists_eq_succ_of_ne_zero hn
      simp [itH, vec]
    · simp
  · rw [e1, ((hasPd_coord Arg.t p).sub (hasPd_const 1 p)).pd]
    simp

end Verif.Flatten
