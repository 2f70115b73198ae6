import Verif.Proofs.LieZero
import Verif.Proofs.FlattenInner
import Verif.Props.OCPQPLie
import Verif.Props.OCPQPCost

/-! # Second derivatives along a linearisation on Lie groups -/

set_option linter.unusedSectionVars false

namespace Verif.Flatten

open scoped Topology

/-- Second derivatives of `f ∘ g` when `f` has derivatives along moves and `g` is lifted. -/
theorem lift_two {ι : Type*} [Fintype ι] [DecidableEq ι] {P B : Type*} [Fintype B] [DecidableEq B] {mv : P → (B → ℝ) → P} {f : P → ℝ} {Jf : P → B → ℝ}
    {Hf : P → B → B → ℝ} (h1 : ∀ p, HasMv mv f (Jf p) p) (h2 : ∀ p k, HasMv mv (fun p => Jf p k) (Hf p k) p)
    (h3 : ∀ p k l, ContinuousAt (fun δ => Hf (mv p δ) k l) 0) {g : (ι → ℝ) → P} {T : (ι → ℝ) → B → ι → ℝ} {H : (ι → ℝ) → B → ι → ι → ℝ}
    (hg : ∀ z, HasLift mv g (T z) z) (hT : ∀ z k a, HasPd (fun z => T z k a) (H z k a) z) (hH : ∀ k a b, Continuous fun z => H z k a b) :
    ContDiff ℝ 2 (fun z => f (g z)) ∧ (∀ z a, pd (fun z => f (g z)) a z = ∑ k, Jf (g z) k * T z k a) ∧
    ∀ z a b, pd (pd (fun z => f (g z)) a) b z = (∑ k, ∑ l, Hf (g z) k l * T z l b * T z k a) + ∑ k, Jf (g z) k * H z k a b := by
  have p1 : ∀ z, HasPd (fun z => f (g z)) (fun a => ∑ k, Jf (g z) k * T z k a) z := fun z => (h1 (g z)).comp (hg z)
  have p2 : ∀ z a, HasPd (fun z => ∑ k, Jf (g z) k * T z k a) (fun b => (∑ k, ∑ l, Hf (g z) k l * T z l b * T z k a) + ∑ k, Jf (g z) k * H z k a b) z :=
    fun z a => HasMv.comp2 (fun k => h2 (g z) k) (hg z) (fun k a => hT z k a) a
  have c1 : ∀ k l, Continuous fun z => Hf (g z) k l := fun k l => continuous_iff_continuousAt.2 fun z =>
    HasLift.continuousAt (f := fun p => Hf p k l) (h3 (g z) k l) (hg z)
  have c2 : ∀ k, Continuous fun z => Jf (g z) k := fun k => continuous_iff_continuousAt.2 fun z => ((h2 (g z) k).comp (hg z)).differentiableAt.continuousAt
  have c3 : ∀ k a, Continuous fun z => T z k a := fun k a => continuous_iff_continuousAt.2 fun z => (hT z k a).differentiableAt.continuousAt
  refine ⟨contDiff_two_of_pd p1 p2 fun a b => ?_, fun z a => (p1 z).pd a, fun z a b => ?_⟩
  · exact (continuous_finsetSum _ fun k _ => continuous_finsetSum _ fun l _ => ((c1 k l).mul (c3 l b)).mul (c3 k a)).add
      (continuous_finsetSum _ fun k _ => (c2 k).mul (hH k a b))
  · rw [funext fun z => (p1 z).pd a]
    exact (p2 z a).pd b

end Verif.Flatten

namespace Verif.OQP

open Verif.Mesh Verif.Sparse Verif.MeshFn Verif.NLP Verif.QP Verif.QPSpec Verif.Lie Verif.Flatten
open scoped Matrix Topology
open Filter

variable {X U 𝔸 𝔹 : Type*} [NormedRing 𝔸] [NormedAlgebra ℝ 𝔸] [FiniteDimensional ℝ 𝔸] [CompleteSpace 𝔸] [NormedRing 𝔹] [NormedAlgebra ℝ 𝔹]
  [FiniteDimensional ℝ 𝔹] [CompleteSpace 𝔹]
  {nx nu ncr nce nf : ℕ} {LX : LieOps X ℝ nx} {LU : LieOps U ℝ nu} {mat : X → 𝔸} {hat : (Fin nx → ℝ) →ₗ[ℝ] 𝔸} {matU : U → 𝔹}
  {hatU : (Fin nu → ℝ) →ₗ[ℝ] 𝔹} {lin : GLin X U ℝ nx}

/-! ### Inner points -/

/-- `(t, x ⊕ e, u ⊕ v)`. -/
def ptG (LX : LieOps X ℝ nx) (LU : LieOps U ℝ nu) (t : ℝ) (x : X) (u : U) (δ : Arg nx nu → ℝ) : ℝ × X × U :=
  (t, LX.rplus x fun k => δ (.x k), LU.rplus u fun k => δ (.u k))

def ptT (LX : LieOps X ℝ nx) (LU : LieOps U ℝ nu) (δ : Arg nx nu → ℝ) : Arg nx nu → Arg nx nu → ℝ
  | .x i, .x j => LX.drExp (fun k => δ (.x k)) i j
  | .u i, .u j => LU.drExp (fun k => δ (.u k)) i j
  | _, _ => 0

def ptH (LX : LieOps X ℝ nx) (LU : LieOps U ℝ nu) (δ : Arg nx nu → ℝ) : Arg nx nu → Arg nx nu → Arg nx nu → ℝ
  | .x k, .x r, .x c => LX.d2rExp (fun k => δ (.x k)) k r c
  | .u k, .u r, .u c => LU.d2rExp (fun k => δ (.u k)) k r c
  | _, _, _ => 0

theorem ptG_lift (h : IsLie LX mat hat) (h' : IsLie LU matU hatU) (t : ℝ) (x : X) (u : U) (z : Arg nx nu → ℝ) :
    HasLift (move LX LU) (ptG LX LU t x u) (ptT LX LU z) z := by
  obtain ⟨a, a0, ha, hae⟩ := lift_rplus h (rd_const x z) fun k => (Arg.x k : Arg nx nu)
  obtain ⟨b, b0, hb, hbe⟩ := lift_rplus h' (rd_const u z) fun k => (Arg.u k : Arg nx nu)
  refine ⟨fun z' => fun
      | .t => 0
      | .x k => a z' k
      | .u k => b z' k, ?_, ?_, ?_⟩
  · funext k
    cases k with
    | t => rfl
    | x k => exact congrFun a0 k
    | u k => exact congrFun b0 k
  · intro k
    cases k with
    | t => exact (hasPd_const 0 z).of_eq fun b => by cases b <;> rfl
    | x k =>
      refine (ha k).of_eq fun c => ?_
      rw [ContinuousLinearMap.zero_apply, adVel_zero]
      cases c <;> simp [ptT]
    | u k =>
      refine (hb k).of_eq fun c => ?_
      rw [ContinuousLinearMap.zero_apply, adVel_zero]
      cases c <;> simp [ptT]
  · filter_upwards [hae, hbe] with z' h1 h2
    exact Prod.ext (add_zero t).symm (Prod.ext h1 h2)

theorem ptT_hasPd (h : IsLie LX mat hat) (h' : IsLie LU matU hatU) (z : Arg nx nu → ℝ) (k a : Arg nx nu) :
    HasPd (fun z => ptT LX LU z k a) (ptH LX LU z k a) z := by
  have zero : ∀ T : Arg nx nu → ℝ, (∀ b, T b = 0) → HasPd (fun _ : Arg nx nu → ℝ => (0 : ℝ)) T z := fun T hT => (hasPd_const 0 z).of_eq fun b => (hT b).symm
  cases k with
  | t => exact zero _ fun b => rfl
  | x k =>
    cases a with
    | x r =>
      refine (comp_coord_hasPd (fun c => Arg.x c) (drExp_hasPd h (fun c => z (.x c)) k r)).of_eq fun b => ?_
      cases b <;> simp [ptH]
    | _ => exact zero _ fun b => rfl
  | u k =>
    cases a with
    | u r =>
      refine (comp_coord_hasPd (fun c => Arg.u c) (drExp_hasPd h' (fun c => z (.u c)) k r)).of_eq fun b => ?_
      cases b <;> simp [ptH]
    | _ => exact zero _ fun b => rfl

theorem ptH_continuous (h : IsLie LX mat hat) (h' : IsLie LU matU hatU) (k a b : Arg nx nu) : Continuous fun z => ptH LX LU z k a b := by
  have ex : Continuous fun z : Arg nx nu → ℝ => fun c => z (.x c) := continuous_pi fun c => continuous_apply _
  have eu : Continuous fun z : Arg nx nu → ℝ => fun c => z (.u c) := continuous_pi fun c => continuous_apply _
  rcases k with _ | k | k <;> rcases a with _ | r | r <;> rcases b with _ | c | c <;>
    first
    | exact (continuous_const : Continuous fun _ : Arg nx nu → ℝ => (0 : ℝ))
    | exact ((d2rExp_continuous h k r c).comp ex : Continuous fun z : Arg nx nu → ℝ => LX.d2rExp (fun c => z (.x c)) k r c)
    | exact ((d2rExp_continuous h' k r c).comp eu : Continuous fun z : Arg nx nu → ℝ => LU.d2rExp (fun c => z (.u c)) k r c)

/-- `-1/2 ⟨J, [e_b, e_a]⟩`, for the pairs of coordinates in the same group. -/
noncomputable def bend (LX : LieOps X ℝ nx) (LU : LieOps U ℝ nu) (J : Arg nx nu → ℝ) : Arg nx nu → Arg nx nu → ℝ
  | .x a, .x b => -(1 / 2) * ∑ k, J (.x k) * LX.ad (Pi.single b 1) k a
  | .u a, .u b => -(1 / 2) * ∑ k, J (.u k) * LU.ad (Pi.single b 1) k a
  | _, _ => 0

/-- The second derivatives of a function along the linearisation, at zero. -/
theorem along_two (h : IsLie LX mat hat) (h' : IsLie LU matU hatU) {f : GFn X U ℝ nf} (hf : IsDrG LX LU f) (t : ℝ) (j : Fin nf) :
    ContDiff ℝ 2 (fun δ => along LX LU f lin t δ j) ∧ ∀ a b : Arg nx nu, pd (pd (fun δ => along LX LU f lin t δ j) a) b 0 =
      noT (fun a => noT (fun b => (f.hess t (lin.x t) (lin.u t)).val a.pos ((1 + nx + nu) * j + b.pos) +
        bend LX LU (fun a => (f.jac t (lin.x t) (lin.u t)).val j a.pos) a b) b) a := by
  obtain ⟨c, -, e⟩ := lift_two (mv := move LX LU) (f := fun p : ℝ × X × U => f.val p.1 p.2.1 p.2.2 j)
    (Jf := fun p (a : Arg nx nu) => (f.jac p.1 p.2.1 p.2.2).val j a.pos)
    (Hf := fun p (a b : Arg nx nu) => (f.hess p.1 p.2.1 p.2.2).val a.pos ((1 + nx + nu) * j + b.pos)) (fun p => hf.jac_val p j)
    (fun p a => hf.hess_val p j a) (fun p a b => hf.hess_cont p j a b) (ptG_lift h h' t (lin.x t) (lin.u t)) (ptT_hasPd h h') (ptH_continuous h h')
  refine ⟨c, fun a b => (e 0 a b).trans ?_⟩
  have e0 : ptG LX LU t (lin.x t) (lin.u t) 0 = (t, lin.x t, lin.u t) := by
    change (t, LX.rplus (lin.x t) 0, LU.rplus (lin.u t) 0) = _
    rw [h.rplus_zero, h'.rplus_zero]
  rw [e0]
  have t1 : ∀ k a : Arg nx nu, ptT LX LU 0 k a = noT (fun a => if k = a then 1 else 0) a := by
    have g1 : LX.drExp (fun _ => 0) = 1 := h.drExp_zero
    have g2 : LU.drExp (fun _ => 0) = 1 := h'.drExp_zero
    intro k a
    cases k <;> cases a <;> simp [ptT, noT, g1, g2, Matrix.one_apply]
  have t2 : ∀ k r c : Fin nx, LX.d2rExp (fun k => (0 : Arg nx nu → ℝ) (.x k)) k r c = -(1 / 2) * LX.ad (Pi.single c 1) k r := fun k r c => h.d2rExp_zero k r c
  have t3 : ∀ k r c : Fin nu, LU.d2rExp (fun k => (0 : Arg nx nu → ℝ) (.u k)) k r c = -(1 / 2) * LU.ad (Pi.single c 1) k r := fun k r c => h'.d2rExp_zero k r c
  have hs : ∀ φ : Arg nx nu → ℝ, (∑ k, φ k * ptT LX LU 0 k a) = noT φ a := by
    intro φ
    simp only [t1]
    cases a <;> simp [noT]
  have hs' : ∀ φ : Arg nx nu → ℝ, (∑ k, φ k * ptT LX LU 0 k b) = noT φ b := by
    intro φ
    simp only [t1]
    cases b <;> simp [noT]
  simp only [← Finset.sum_mul, hs, hs']
  cases a <;> cases b <;> simp only [noT, zero_add, bend] <;> rw [arg_sum_eq] <;>
    simp only [t2, t3, ptH, mul_zero, Finset.sum_const_zero, add_zero, zero_add, Finset.mul_sum, mul_left_comm]

/-! ### End points -/

/-- `(tf, x0 ⊕ e0, xf ⊕ ef, 1 + q)`. -/
def endG (LX : LieOps X ℝ nx) (tf : ℝ) (x0 xf : X) (δ : EArg nx 1 → ℝ) : ℝ × X × X × (Fin 1 → ℝ) :=
  (tf, LX.rplus x0 fun k => δ (.x0 k), LX.rplus xf fun k => δ (.xf k), fun k => 1 + δ (.q k))

def endT (LX : LieOps X ℝ nx) (δ : EArg nx 1 → ℝ) : EArg nx 1 → EArg nx 1 → ℝ
  | .x0 i, .x0 j => LX.drExp (fun k => δ (.x0 k)) i j
  | .xf i, .xf j => LX.drExp (fun k => δ (.xf k)) i j
  | .q _, .q _ => 1
  | _, _ => 0

def endH (LX : LieOps X ℝ nx) (δ : EArg nx 1 → ℝ) : EArg nx 1 → EArg nx 1 → EArg nx 1 → ℝ
  | .x0 k, .x0 r, .x0 c => LX.d2rExp (fun k => δ (.x0 k)) k r c
  | .xf k, .xf r, .xf c => LX.d2rExp (fun k => δ (.xf k)) k r c
  | _, _, _ => 0

theorem endG_lift (h : IsLie LX mat hat) (tf : ℝ) (x0 xf : X) (z : EArg nx 1 → ℝ) : HasLift (moveE LX) (endG LX tf x0 xf) (endT LX z) z := by
  obtain ⟨a, a0, ha, hae⟩ := lift_rplus h (rd_const x0 z) fun k => (EArg.x0 k : EArg nx 1)
  obtain ⟨b, b0, hb, hbe⟩ := lift_rplus h (rd_const xf z) fun k => (EArg.xf k : EArg nx 1)
  refine ⟨fun z' => fun
      | .tf => 0
      | .x0 k => a z' k
      | .xf k => b z' k
      | .q k => z' (.q k) - z (.q k), ?_, ?_, ?_⟩
  · funext k
    cases k with
    | tf => rfl
    | x0 k => exact congrFun a0 k
    | xf k => exact congrFun b0 k
    | q k => exact sub_self _
  · intro k
    cases k with
    | tf => exact (hasPd_const 0 z).of_eq fun b => by cases b <;> rfl
    | x0 k =>
      refine (ha k).of_eq fun c => ?_
      rw [ContinuousLinearMap.zero_apply, adVel_zero]
      cases c <;> simp [endT]
    | xf k =>
      refine (hb k).of_eq fun c => ?_
      rw [ContinuousLinearMap.zero_apply, adVel_zero]
      cases c <;> simp [endT]
    | q k =>
      refine ((hasPd_coord (EArg.q k) z).sub (hasPd_const (z (.q k)) z)).of_eq fun b => ?_
      cases b with
      | q l => rw [Subsingleton.elim k l]; simp [endT]
      | _ => simp [endT]
  · filter_upwards [hae, hbe] with z' h1 h2
    refine Prod.ext (add_zero tf).symm (Prod.ext h1 (Prod.ext h2 ?_))
    funext k
    change 1 + z' (.q k) = 1 + z (.q k) + (z' (.q k) - z (.q k))
    ring

theorem endT_hasPd (h : IsLie LX mat hat) (z : EArg nx 1 → ℝ) (k a : EArg nx 1) : HasPd (fun z => endT LX z k a) (endH LX z k a) z := by
  have zero : ∀ T : EArg nx 1 → ℝ, (∀ b, T b = 0) → HasPd (fun _ : EArg nx 1 → ℝ => (0 : ℝ)) T z := fun T hT => (hasPd_const 0 z).of_eq fun b => (hT b).symm
  cases k with
  | tf => exact zero _ fun b => rfl
  | x0 k =>
    cases a with
    | x0 r =>
      refine (comp_coord_hasPd (fun c => EArg.x0 c) (drExp_hasPd h (fun c => z (.x0 c)) k r)).of_eq fun b => ?_
      cases b <;> simp [endH]
    | _ => exact zero _ fun b => rfl
  | xf k =>
    cases a with
    | xf r =>
      refine (comp_coord_hasPd (fun c => EArg.xf c) (drExp_hasPd h (fun c => z (.xf c)) k r)).of_eq fun b => ?_
      cases b <;> simp [endH]
    | _ => exact zero _ fun b => rfl
  | q k =>
    cases a with
    | q r => exact (hasPd_const 1 z).of_eq fun b => rfl
    | _ => exact zero _ fun b => rfl

theorem endH_continuous (h : IsLie LX mat hat) (k a b : EArg nx 1) : Continuous fun z => endH LX z k a b := by
  have e0 : Continuous fun z : EArg nx 1 → ℝ => fun c => z (.x0 c) := continuous_pi fun c => continuous_apply _
  have ef : Continuous fun z : EArg nx 1 → ℝ => fun c => z (.xf c) := continuous_pi fun c => continuous_apply _
  rcases k with _ | k | k | k <;> rcases a with _ | r | r | r <;> rcases b with _ | c | c | c <;>
    first
    | exact (continuous_const : Continuous fun _ : EArg nx 1 → ℝ => (0 : ℝ))
    | exact ((d2rExp_continuous h k r c).comp e0 : Continuous fun z : EArg nx 1 → ℝ => LX.d2rExp (fun c => z (.x0 c)) k r c)
    | exact ((d2rExp_continuous h k r c).comp ef : Continuous fun z : EArg nx 1 → ℝ => LX.d2rExp (fun c => z (.xf c)) k r c)

noncomputable def bendE (LX : LieOps X ℝ nx) (J : EArg nx 1 → ℝ) : EArg nx 1 → EArg nx 1 → ℝ
  | .x0 a, .x0 b => -(1 / 2) * ∑ k, J (.x0 k) * LX.ad (Pi.single b 1) k a
  | .xf a, .xf b => -(1 / 2) * ∑ k, J (.xf k) * LX.ad (Pi.single b 1) k a
  | _, _ => 0

theorem ends_two (h : IsLie LX mat hat) {f : GEFn X ℝ 1 nf} (hf : IsDrGE LX f) (tf : ℝ) (j : Fin nf) :
    ContDiff ℝ 2 (fun δ => ends LX f lin tf δ j) ∧ ∀ a b : EArg nx 1, pd (pd (fun δ => ends LX f lin tf δ j) a) b 0 =
      noTE (fun a => noTE (fun b => (f.hess tf (lin.x 0) (lin.x tf) fun _ => 1).val a.pos ((1 + 2 * nx + 1) * j + b.pos) +
        bendE LX (fun a => (f.jac tf (lin.x 0) (lin.x tf) fun _ => 1).val j a.pos) a b) b) a := by
  obtain ⟨c, -, e⟩ := lift_two (mv := moveE LX) (f := fun p : ℝ × X × X × (Fin 1 → ℝ) => f.val p.1 p.2.1 p.2.2.1 p.2.2.2 j)
    (Jf := fun p (a : EArg nx 1) => (f.jac p.1 p.2.1 p.2.2.1 p.2.2.2).val j a.pos)
    (Hf := fun p (a b : EArg nx 1) => (f.hess p.1 p.2.1 p.2.2.1 p.2.2.2).val a.pos ((1 + 2 * nx + 1) * j + b.pos)) (fun p => hf.jac_val p j)
    (fun p a => hf.hess_val p j a) (fun p a b => hf.hess_cont p j a b) (endG_lift h tf (lin.x 0) (lin.x tf)) (endT_hasPd h) (endH_continuous h)
  refine ⟨c, fun a b => (e 0 a b).trans ?_⟩
  have e0 : endG LX tf (lin.x 0) (lin.x tf) 0 = (tf, lin.x 0, lin.x tf, fun _ => 1) := by
    change ((tf, LX.rplus (lin.x 0) 0, LX.rplus (lin.x tf) 0, fun _ => 1 + 0) : ℝ × X × X × (Fin 1 → ℝ)) = _
    rw [h.rplus_zero, h.rplus_zero, add_zero]
  rw [e0]
  have t1 : ∀ k a : EArg nx 1, endT LX 0 k a = noTE (fun a => if k = a then 1 else 0) a := by
    have g1 : LX.drExp (fun _ => 0) = 1 := h.drExp_zero
    intro k a
    cases k <;> cases a <;> first | rfl | simp [endT, noTE, g1, Matrix.one_apply, eq_iff_true_of_subsingleton]
  have t2 : ∀ k r c : Fin nx, LX.d2rExp (fun k => (0 : EArg nx 1 → ℝ) (.x0 k)) k r c = -(1 / 2) * LX.ad (Pi.single c 1) k r := fun k r c => h.d2rExp_zero k r c
  have t3 : ∀ k r c : Fin nx, LX.d2rExp (fun k => (0 : EArg nx 1 → ℝ) (.xf k)) k r c = -(1 / 2) * LX.ad (Pi.single c 1) k r := fun k r c => h.d2rExp_zero k r c
  have hs : ∀ φ : EArg nx 1 → ℝ, (∑ k, φ k * endT LX 0 k a) = noTE φ a := by
    intro φ
    simp only [t1]
    cases a <;> simp [noTE]
  have hs' : ∀ φ : EArg nx 1 → ℝ, (∑ k, φ k * endT LX 0 k b) = noTE φ b := by
    intro φ
    simp only [t1]
    cases b <;> simp [noTE]
  simp only [← Finset.sum_mul, hs, hs']
  cases a <;> cases b <;> simp only [noTE, zero_add, bendE] <;> rw [earg_sum_eq] <;>
    simp only [t2, t3, endH, mul_zero, Finset.sum_const_zero, add_zero, zero_add, Finset.mul_sum, mul_left_comm]

/-! ### Symmetry -/

theorem bend_antisymm (h : IsLie LX mat hat) (h' : IsLie LU matU hatU) (J : Arg nx nu → ℝ) (a b : Arg nx nu) :
    bend LX LU J a b = -bend LX LU J b a := by
  have g1 : ∀ a b k, LX.ad (Pi.single b 1) k a = -LX.ad (Pi.single a 1) k b := by
    intro a b k
    have := congrFun (ad_antisymm h (Pi.single b 1) (Pi.single a 1)) k
    simpa using this
  have g2 : ∀ a b k, LU.ad (Pi.single b 1) k a = -LU.ad (Pi.single a 1) k b := by
    intro a b k
    have := congrFun (ad_antisymm h' (Pi.single b 1) (Pi.single a 1)) k
    simpa using this
  cases a with
  | t => simp [bend]
  | x a => cases b with
    | x b => simp only [bend, g1 a b]; simp
    | _ => simp [bend]
  | u a => cases b with
    | u b => simp only [bend, g2 a b]; simp
    | _ => simp [bend]

theorem bendE_antisymm (h : IsLie LX mat hat) (J : EArg nx 1 → ℝ) (a b : EArg nx 1) : bendE LX J a b = -bendE LX J b a := by
  have g1 : ∀ a b k, LX.ad (Pi.single b 1) k a = -LX.ad (Pi.single a 1) k b := by
    intro a b k
    have := congrFun (ad_antisymm h (Pi.single b 1) (Pi.single a 1)) k
    simpa using this
  cases a with
  | tf => simp [bendE]
  | q a => simp [bendE]
  | x0 a => cases b with
    | x0 b => simp only [bendE, g1 a b]; simp
    | _ => simp [bendE]
  | xf a => cases b with
    | xf b => simp only [bendE, g1 a b]; simp
    | _ => simp [bendE]

end Verif.OQP
