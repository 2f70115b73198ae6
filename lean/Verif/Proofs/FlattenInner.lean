import Verif.Proofs.FlattenLie
import Verif.Proofs.FlattenMat

/-! # Derivatives of the map `(t, e, v) ↦ (t, xl(t) ⊕ e, ul(t) ⊕ v)` -/

set_option linter.unusedSectionVars false

namespace Verif.Flatten

open Verif.Sparse Verif.Lie Verif.MeshFn Verif.NLP

open scoped Topology Matrix
open Filter

variable {X U 𝔸 𝔹 : Type*} {nx nu nq n nf : ℕ} [NormedRing 𝔸] [NormedAlgebra ℝ 𝔸] [FiniteDimensional ℝ 𝔸] [CompleteSpace 𝔸]
  [NormedRing 𝔹] [NormedAlgebra ℝ 𝔹] [FiniteDimensional ℝ 𝔹] [CompleteSpace 𝔹]
  {L LX : LieOps X ℝ nx} {LU : LieOps U ℝ nu} {mat : X → 𝔸} {hat : (Fin nx → ℝ) →ₗ[ℝ] 𝔸} {matU : U → 𝔹} {hatU : (Fin nu → ℝ) →ₗ[ℝ] 𝔹}
  {ι : Type*} [Fintype ι] [DecidableEq ι]

/-- The map `z ↦ x(z) ⊕ (z_κ)`, in the tangent space. -/
theorem lift_rplus (h : IsLie L mat hat) {x : (ι → ℝ) → X} {Dx : (ι → ℝ) →L[ℝ] (Fin nx → ℝ)} {z : ι → ℝ} (hx : HasRd mat hat x Dx Set.univ z)
    (κ : Fin nx → ι) :
    ∃ a : (ι → ℝ) → Fin nx → ℝ, a z = 0 ∧ (∀ k, HasPd (fun z => a z k)
        (fun b => adVel L (fun c => z (κ c)) (Dx (Pi.single b 1)) k + ∑ c, L.drExp (fun c => z (κ c)) k c * (if κ c = b then 1 else 0)) z) ∧
      ∀ᶠ z' in 𝓝 z, L.rplus (x z') (fun c => z' (κ c)) = L.rplus (L.rplus (x z) fun c => z (κ c)) (a z') := by
  let E : (ι → ℝ) →L[ℝ] (Fin nx → ℝ) := ContinuousLinearMap.pi fun c => ContinuousLinearMap.proj (R := ℝ) (φ := fun _ : ι => ℝ) (κ c)
  have he : HasFDerivWithinAt (fun z : ι → ℝ => fun c => z (κ c)) E Set.univ z := E.hasFDerivAt.hasFDerivWithinAt
  obtain ⟨a, a0, ha, hev⟩ := h.lift (h.rd_rplus hx he)
  refine ⟨a, a0, fun k => ⟨_, hasFDerivAt_pi'.1 ha k, fun b => ?_⟩, hev⟩
  change (L.Ad (L.exp (-fun c => z (κ c))) *ᵥ Dx (Pi.single b 1) + L.drExp (fun c => z (κ c)) *ᵥ E (Pi.single b 1)) k = _
  have h2 : (L.drExp (fun c => z (κ c)) *ᵥ E (Pi.single b 1)) k = ∑ c, L.drExp (fun c => z (κ c)) k c * (if κ c = b then 1 else 0) := by
    unfold Matrix.mulVec dotProduct
    refine Finset.sum_congr rfl fun c _ => ?_
    have : E (Pi.single b 1) c = (Pi.single b (1 : ℝ) : ι → ℝ) (κ c) := rfl
    rw [this, Pi.single_apply]
  rw [Pi.add_apply, h2]
  rfl

theorem rd_time {xl : Traj X ℝ nx} {z : ι → ℝ} (τ : ι) (hx : HasVel mat hat xl.val (xl.d (z τ)) Set.univ (z τ)) :
    HasRd mat hat (fun z : ι → ℝ => xl.val (z τ)) ((ContinuousLinearMap.proj (R := ℝ) (φ := fun _ : ι => ℝ) τ).smulRight (xl.d (z τ))) Set.univ z := by
  have h1 : HasDerivAt (fun s => mat (xl.val s)) (mat (xl.val (z τ)) * hat (xl.d (z τ))) (z τ) := by
    unfold HasVel at hx
    rwa [hasDerivWithinAt_univ] at hx
  have h2 := h1.hasFDerivAt.comp z (ContinuousLinearMap.proj (R := ℝ) (φ := fun _ : ι => ℝ) τ).hasFDerivAt
  refine ⟨_, h2.hasFDerivWithinAt, fun w => ?_⟩
  simp

theorem rd_const (x : X) (z : ι → ℝ) : HasRd mat hat (fun _ : ι → ℝ => x) 0 Set.univ z := by
  refine ⟨0, (hasFDerivAt_const _ _).hasFDerivWithinAt, fun w => ?_⟩
  simp

theorem adVel_smul (L : LieOps X ℝ nx) (e w : Fin nx → ℝ) (r : ℝ) (k : Fin nx) : adVel L e (r • w) k = r * adVel L e w k := by
  unfold adVel
  rw [Matrix.mulVec_smul]; rfl

theorem adVel_zero (L : LieOps X ℝ nx) (e : Fin nx → ℝ) (k : Fin nx) : adVel L e 0 k = 0 := by
  unfold adVel
  rw [Matrix.mulVec_zero]; rfl

/-! ### Inner points -/

/-- `(t, xl(t) ⊕ e, ul(t) ⊕ v)`. -/
def gmap (LX : LieOps X ℝ nx) (LU : LieOps U ℝ nu) (xl : Traj X ℝ nx) (ul : Traj U ℝ nu) (z : Arg nx nu → ℝ) : ℝ × X × U :=
  (z .t, LX.rplus (xl.val (z .t)) fun k => z (.x k), LU.rplus (ul.val (z .t)) fun k => z (.u k))

/-- Its right Jacobian. -/
noncomputable def gT (LX : LieOps X ℝ nx) (LU : LieOps U ℝ nu) (xl : Traj X ℝ nx) (ul : Traj U ℝ nu) (z : Arg nx nu → ℝ) : Arg nx nu → Arg nx nu → ℝ :=
  jopT LX LU (fun k => z (.x k)) (fun k => z (.u k)) (xl.d (z .t)) (ul.d (z .t))

/-- The derivatives that `update_hoplus` computes. -/
noncomputable def gH (LX : LieOps X ℝ nx) (LU : LieOps U ℝ nu) (xl : Traj X ℝ nx) (ul : Traj U ℝ nu) (z : Arg nx nu → ℝ) : Arg nx nu → Arg nx nu → Arg nx nu → ℝ :=
  hopT LX LU (fun k => z (.x k)) (fun k => z (.u k)) (xl.d (z .t)) (ul.d (z .t))

/-- The derivatives that it leaves out. -/
noncomputable def gMiss (LX : LieOps X ℝ nx) (LU : LieOps U ℝ nu) (ddx : Fin nx → ℝ) (ddu : Fin nu → ℝ) (z : Arg nx nu → ℝ) :
    Arg nx nu → Arg nx nu → Arg nx nu → ℝ
  | .x k, .t, .t => adVel LX (fun k => z (.x k)) ddx k
  | .u k, .t, .t => adVel LU (fun k => z (.u k)) ddu k
  | _, _, _ => 0

theorem gmap_lift (h : IsLie LX mat hat) (h' : IsLie LU matU hatU) {xl : Traj X ℝ nx} {ul : Traj U ℝ nu} {z : Arg nx nu → ℝ}
    (hx : HasVel mat hat xl.val (xl.d (z .t)) Set.univ (z .t)) (hu : HasVel matU hatU ul.val (ul.d (z .t)) Set.univ (z .t)) :
    HasLift (move LX LU) (gmap LX LU xl ul) (gT LX LU xl ul z) z := by
  obtain ⟨a, a0, ha, hae⟩ := lift_rplus h (rd_time .t hx) fun k => Arg.x k
  obtain ⟨b, b0, hb, hbe⟩ := lift_rplus h' (rd_time .t hu) fun k => Arg.u k
  refine ⟨fun z' => fun
      | .t => z' .t - z .t
      | .x k => a z' k
      | .u k => b z' k, ?_, ?_, ?_⟩
  · funext k
    cases k with
    | t => exact sub_self _
    | x k => exact congrFun a0 k
    | u k => exact congrFun b0 k
  · intro k
    cases k with
    | t =>
      refine ((hasPd_coord Arg.t z).sub (hasPd_const (z .t) z)).of_eq fun b => ?_
      cases b <;> simp [gT, jopT]
    | x k =>
      refine (ha k).of_eq fun c => ?_
      have e1 : ((ContinuousLinearMap.proj (R := ℝ) (φ := fun _ : Arg nx nu => ℝ) Arg.t).smulRight (xl.d (z .t))) (Pi.single c 1) =
          (Pi.single c (1 : ℝ) : Arg nx nu → ℝ) .t • xl.d (z .t) := rfl
      rw [e1, adVel_smul]
      cases c <;> simp [gT, jopT]
    | u k =>
      refine (hb k).of_eq fun c => ?_
      have e1 : ((ContinuousLinearMap.proj (R := ℝ) (φ := fun _ : Arg nx nu => ℝ) Arg.t).smulRight (ul.d (z .t))) (Pi.single c 1) =
          (Pi.single c (1 : ℝ) : Arg nx nu → ℝ) .t • ul.d (z .t) := rfl
      rw [e1, adVel_smul]
      cases c <;> simp [gT, jopT]
  · filter_upwards [hae, hbe] with z' h1 h2
    refine Prod.ext ?_ (Prod.ext h1 h2)
    change z' .t = z .t + (z' .t - z .t)
    ring

theorem comp_coord_hasPd {f : (Fin n → ℝ) → ℝ} {T : Fin n → ℝ} {z : ι → ℝ} (κ : Fin n → ι) (h : HasPd f T fun c => z (κ c)) :
    HasPd (fun z => f fun c => z (κ c)) (fun a => ∑ c, T c * if κ c = a then 1 else 0) z :=
  HasPd.comp (g := fun z c => z (κ c)) h fun c => hasPd_coord (κ c) z

theorem vel_hasPd {d : ℝ → Fin n → ℝ} {dd : Fin n → ℝ} {z : ι → ℝ} (τ : ι) (h : HasDerivAt d dd (z τ)) (k : Fin n) :
    HasPd (fun z => d (z τ) k) (fun a => dd k * if τ = a then 1 else 0) z := by
  have h1 : HasDerivAt (fun t => d t k) (dd k) (z τ) := by
    have := (hasFDerivAt_pi'.1 h.hasFDerivAt k).hasDerivAt
    simpa using this
  have h2 := h1.hasFDerivAt.comp z (ContinuousLinearMap.proj (R := ℝ) (φ := fun _ : ι => ℝ) τ).hasFDerivAt
  refine ⟨_, h2, fun a => ?_⟩
  simp [Pi.single_apply, mul_comm]

/-- The derivatives of the right Jacobian. -/
theorem gT_hasPd (h : IsLie LX mat hat) (h' : IsLie LU matU hatU) {xl : Traj X ℝ nx} {ul : Traj U ℝ nu} {z : Arg nx nu → ℝ} {ddx : Fin nx → ℝ}
    {ddu : Fin nu → ℝ} (hx : HasDerivAt xl.d ddx (z .t)) (hu : HasDerivAt ul.d ddu (z .t)) (k a : Arg nx nu) :
    HasPd (fun z => gT LX LU xl ul z k a) (fun b => gH LX LU xl ul z k a b + gMiss LX LU ddx ddu z k a b) z := by
  have zero : ∀ T : Arg nx nu → ℝ, (∀ b, T b = 0) → HasPd (fun _ : Arg nx nu → ℝ => (0 : ℝ)) T z := fun T hT => (hasPd_const 0 z).of_eq fun b => (hT b).symm
  cases k with
  | t =>
    cases a with
    | t => exact (hasPd_const 1 z).of_eq fun b => by simp [gH, hopT, gMiss]
    | x r => exact zero _ fun b => by simp [gH, hopT, gMiss]
    | u r => exact zero _ fun b => by simp [gH, hopT, gMiss]
  | x k =>
    cases a with
    | t =>
      have := adVel_hasPd (ι := Arg nx nu) (z := z) h (e := fun z c => z (.x c)) (fun c => hasPd_coord (Arg.x c) z) (vel_hasPd .t hx) k
      refine this.of_eq fun b => ?_
      cases b with
      | t =>
        simp [gH, hopT, gMiss]
      | x c => simp [gH, hopT, gMiss, adVel_apply]
      | u c => simp [gH, hopT, gMiss, adVel_apply]
    | x r =>
      refine (comp_coord_hasPd (fun c => Arg.x c) (drExp_hasPd h (fun c => z (.x c)) k r)).of_eq fun b => ?_
      cases b <;> simp [gH, hopT, gMiss]
    | u r => exact zero _ fun b => by simp [gH, hopT, gMiss]
  | u k =>
    cases a with
    | t =>
      have := adVel_hasPd (ι := Arg nx nu) (z := z) h' (e := fun z c => z (.u c)) (fun c => hasPd_coord (Arg.u c) z) (vel_hasPd .t hu) k
      refine this.of_eq fun b => ?_
      cases b with
      | t =>
        simp [gH, hopT, gMiss]
      | x c => simp [gH, hopT, gMiss, adVel_apply]
      | u c => simp [gH, hopT, gMiss, adVel_apply]
    | u r =>
      refine (comp_coord_hasPd (fun c => Arg.u c) (drExp_hasPd h' (fun c => z (.u c)) k r)).of_eq fun b => ?_
      cases b <;> simp [gH, hopT, gMiss]
    | x r => exact zero _ fun b => by simp [gH, hopT, gMiss]

/-- The computed derivatives are continuous. -/
theorem gH_continuous (h : IsLie LX mat hat) (h' : IsLie LU matU hatU) {xl : Traj X ℝ nx} {ul : Traj U ℝ nu} (hx : Continuous xl.d)
    (hu : Continuous ul.d) (k a b : Arg nx nu) : Continuous fun z => gH LX LU xl ul z k a b := by
  have ex : Continuous fun z : Arg nx nu → ℝ => fun c => z (.x c) := continuous_pi fun c => continuous_apply _
  have eu : Continuous fun z : Arg nx nu → ℝ => fun c => z (.u c) := continuous_pi fun c => continuous_apply _
  have dx : Continuous fun z : Arg nx nu → ℝ => xl.d (z .t) := hx.comp (continuous_apply _)
  have du : Continuous fun z : Arg nx nu → ℝ => ul.d (z .t) := hu.comp (continuous_apply _)
  cases k with
  | t => exact (continuous_const : Continuous fun _ : Arg nx nu → ℝ => (0 : ℝ))
  | x k =>
    cases a with
    | t =>
      cases b with
      | x c => exact (dAdexp_continuous' h ex dx k c : Continuous fun z : Arg nx nu → ℝ => dAdexp LX (fun c => z (.x c)) (xl.d (z .t)) k c)
      | t => exact (continuous_const : Continuous fun _ : Arg nx nu → ℝ => (0 : ℝ))
      | u c => exact (continuous_const : Continuous fun _ : Arg nx nu → ℝ => (0 : ℝ))
    | x r =>
      cases b with
      | x c => exact ((d2rExp_continuous h k r c).comp ex : Continuous fun z : Arg nx nu → ℝ => LX.d2rExp (fun c => z (.x c)) k r c)
      | t => exact (continuous_const : Continuous fun _ : Arg nx nu → ℝ => (0 : ℝ))
      | u c => exact (continuous_const : Continuous fun _ : Arg nx nu → ℝ => (0 : ℝ))
    | u r => cases b <;> exact (continuous_const : Continuous fun _ : Arg nx nu → ℝ => (0 : ℝ))
  | u k =>
    cases a with
    | t =>
      cases b with
      | u c => exact (dAdexp_continuous' h' eu du k c : Continuous fun z : Arg nx nu → ℝ => dAdexp LU (fun c => z (.u c)) (ul.d (z .t)) k c)
      | t => exact (continuous_const : Continuous fun _ : Arg nx nu → ℝ => (0 : ℝ))
      | x c => exact (continuous_const : Continuous fun _ : Arg nx nu → ℝ => (0 : ℝ))
    | u r =>
      cases b with
      | u c => exact ((d2rExp_continuous h' k r c).comp eu : Continuous fun z : Arg nx nu → ℝ => LU.d2rExp (fun c => z (.u c)) k r c)
      | t => exact (continuous_const : Continuous fun _ : Arg nx nu → ℝ => (0 : ℝ))
      | x c => exact (continuous_const : Continuous fun _ : Arg nx nu → ℝ => (0 : ℝ))
    | x r => cases b <;> exact (continuous_const : Continuous fun _ : Arg nx nu → ℝ => (0 : ℝ))

theorem gT_continuous (h : IsLie LX mat hat) (h' : IsLie LU matU hatU) {xl : Traj X ℝ nx} {ul : Traj U ℝ nu} (hx : Continuous xl.d)
    (hu : Continuous ul.d) (k a : Arg nx nu) : Continuous fun z => gT LX LU xl ul z k a := by
  have ex : Continuous fun z : Arg nx nu → ℝ => fun c => z (.x c) := continuous_pi fun c => continuous_apply _
  have eu : Continuous fun z : Arg nx nu → ℝ => fun c => z (.u c) := continuous_pi fun c => continuous_apply _
  have dx : Continuous fun z : Arg nx nu → ℝ => xl.d (z .t) := hx.comp (continuous_apply _)
  have du : Continuous fun z : Arg nx nu → ℝ => ul.d (z .t) := hu.comp (continuous_apply _)
  cases k with
  | t => cases a <;> simp only [gT, jopT] <;> exact continuous_const
  | x k =>
    cases a with
    | t => exact (adVel_continuous' h ex dx k : Continuous fun z : Arg nx nu → ℝ => adVel LX (fun c => z (.x c)) (xl.d (z .t)) k)
    | x r => exact ((drExp_continuous h k r).comp ex : Continuous fun z : Arg nx nu → ℝ => LX.drExp (fun c => z (.x c)) k r)
    | u r => exact (continuous_const : Continuous fun _ : Arg nx nu → ℝ => (0 : ℝ))
  | u k =>
    cases a with
    | t => exact (adVel_continuous' h' eu du k : Continuous fun z : Arg nx nu → ℝ => adVel LU (fun c => z (.u c)) (ul.d (z .t)) k)
    | u r => exact ((drExp_continuous h' k r).comp eu : Continuous fun z : Arg nx nu → ℝ => LU.drExp (fun c => z (.u c)) k r)
    | x r => exact (continuous_const : Continuous fun _ : Arg nx nu → ℝ => (0 : ℝ))

/-! ### End points -/

/-- `(tf, xl(0) ⊕ e0, xl(tf) ⊕ ef, q)`. -/
def gmapE (L : LieOps X ℝ nx) (xl : Traj X ℝ nx) (z : EArg nx nq → ℝ) : ℝ × X × X × (Fin nq → ℝ) :=
  (z .tf, L.rplus (xl.val 0) fun k => z (.x0 k), L.rplus (xl.val (z .tf)) fun k => z (.xf k), fun k => z (.q k))

noncomputable def gTE (L : LieOps X ℝ nx) (xl : Traj X ℝ nx) (z : EArg nx nq → ℝ) : EArg nx nq → EArg nx nq → ℝ :=
  jopTE nq L (fun k => z (.x0 k)) (fun k => z (.xf k)) (xl.d (z .tf))

noncomputable def gHE (L : LieOps X ℝ nx) (xl : Traj X ℝ nx) (z : EArg nx nq → ℝ) : EArg nx nq → EArg nx nq → EArg nx nq → ℝ :=
  hopTE nq L (fun k => z (.x0 k)) (fun k => z (.xf k)) (xl.d (z .tf))

noncomputable def gMissE (L : LieOps X ℝ nx) (ddx : Fin nx → ℝ) (z : EArg nx nq → ℝ) : EArg nx nq → EArg nx nq → EArg nx nq → ℝ
  | .xf k, .tf, .tf => adVel L (fun k => z (.xf k)) ddx k
  | _, _, _ => 0

theorem gmapE_lift (h : IsLie L mat hat) {xl : Traj X ℝ nx} {z : EArg nx nq → ℝ}
    (hx : HasVel mat hat xl.val (xl.d (z .tf)) Set.univ (z .tf)) : HasLift (moveE L) (gmapE L xl) (gTE L xl z) z := by
  obtain ⟨a, a0, ha, hae⟩ := lift_rplus h (rd_const (xl.val 0) z) fun k => (EArg.x0 k : EArg nx nq)
  obtain ⟨b, b0, hb, hbe⟩ := lift_rplus h (rd_time .tf hx) fun k => EArg.xf k
  refine ⟨fun z' => fun
      | .tf => z' .tf - z .tf
      | .x0 k => a z' k
      | .xf k => b z' k
      | .q k => z' (.q k) - z (.q k), ?_, ?_, ?_⟩
  · funext k
    cases k with
    | tf => exact sub_self _
    | x0 k => exact congrFun a0 k
    | xf k => exact congrFun b0 k
    | q k => exact sub_self _
  · intro k
    cases k with
    | tf =>
      refine ((hasPd_coord EArg.tf z).sub (hasPd_const (z .tf) z)).of_eq fun b => ?_
      cases b <;> simp [gTE, jopTE]
    | x0 k =>
      refine (ha k).of_eq fun c => ?_
      rw [ContinuousLinearMap.zero_apply, adVel_zero]
      cases c <;> simp [gTE, jopTE]
    | xf k =>
      refine (hb k).of_eq fun c => ?_
      have e1 : ((ContinuousLinearMap.proj (R := ℝ) (φ := fun _ : EArg nx nq => ℝ) EArg.tf).smulRight (xl.d (z .tf))) (Pi.single c 1) =
          (Pi.single c (1 : ℝ) : EArg nx nq → ℝ) .tf • xl.d (z .tf) := rfl
      rw [e1, adVel_smul]
      cases c <;> simp [gTE, jopTE]
    | q k =>
      refine ((hasPd_coord (EArg.q k) z).sub (hasPd_const (z (.q k)) z)).of_eq fun b => ?_
      cases b <;> simp [gTE, jopTE, Matrix.one_apply]
  · filter_upwards [hae, hbe] with z' h1 h2
    refine Prod.ext ?_ (Prod.ext h1 (Prod.ext h2 ?_))
    · change z' .tf = z .tf + (z' .tf - z .tf)
      ring
    · funext k
      change z' (.q k) = z (.q k) + (z' (.q k) - z (.q k))
      ring

theorem gTE_hasPd (h : IsLie L mat hat) {xl : Traj X ℝ nx} {z : EArg nx nq → ℝ} {ddx : Fin nx → ℝ} (hx : HasDerivAt xl.d ddx (z .tf))
    (k a : EArg nx nq) : HasPd (fun z => gTE L xl z k a) (fun b => gHE L xl z k a b + gMissE L ddx z k a b) z := by
  have zero : ∀ T : EArg nx nq → ℝ, (∀ b, T b = 0) → HasPd (fun _ : EArg nx nq → ℝ => (0 : ℝ)) T z := fun T hT => (hasPd_const 0 z).of_eq fun b => (hT b).symm
  cases k with
  | tf =>
    cases a with
    | tf => exact (hasPd_const 1 z).of_eq fun b => by simp [gHE, hopTE, gMissE]
    | _ => exact zero _ fun b => by simp [gHE, hopTE, gMissE]
  | q k =>
    cases a with
    | q r => exact (hasPd_const _ z).of_eq fun b => by simp [gHE, hopTE, gMissE]
    | _ => exact zero _ fun b => by simp [gHE, hopTE, gMissE]
  | x0 k =>
    cases a with
    | x0 r =>
      refine (comp_coord_hasPd (fun c => EArg.x0 c) (drExp_hasPd h (fun c => z (.x0 c)) k r)).of_eq fun b => ?_
      cases b <;> simp [gHE, hopTE, gMissE]
    | _ => exact zero _ fun b => by simp [gHE, hopTE, gMissE]
  | xf k =>
    cases a with
    | tf =>
      have := adVel_hasPd (ι := EArg nx nq) (z := z) h (e := fun z c => z (.xf c)) (fun c => hasPd_coord (EArg.xf c) z) (vel_hasPd .tf hx) k
      refine this.of_eq fun b => ?_
      cases b <;> simp [gHE, hopTE, gMissE, adVel_apply]
    | xf r =>
      refine (comp_coord_hasPd (fun c => EArg.xf c) (drExp_hasPd h (fun c => z (.xf c)) k r)).of_eq fun b => ?_
      cases b <;> simp [gHE, hopTE, gMissE]
    | _ => exact zero _ fun b => by simp [gHE, hopTE, gMissE]

theorem gHE_continuous (h : IsLie L mat hat) {xl : Traj X ℝ nx} (hx : Continuous xl.d) (k a b : EArg nx nq) : Continuous fun z => gHE L xl z k a b := by
  have e0 : Continuous fun z : EArg nx nq → ℝ => fun c => z (.x0 c) := continuous_pi fun c => continuous_apply _
  have ef : Continuous fun z : EArg nx nq → ℝ => fun c => z (.xf c) := continuous_pi fun c => continuous_apply _
  have dx : Continuous fun z : EArg nx nq → ℝ => xl.d (z .tf) := hx.comp (continuous_apply _)
  cases k with
  | tf => exact (continuous_const : Continuous fun _ : EArg nx nq → ℝ => (0 : ℝ))
  | q k => exact (continuous_const : Continuous fun _ : EArg nx nq → ℝ => (0 : ℝ))
  | x0 k =>
    cases a with
    | x0 r =>
      cases b with
      | x0 c => exact ((d2rExp_continuous h k r c).comp e0 : Continuous fun z : EArg nx nq → ℝ => L.d2rExp (fun c => z (.x0 c)) k r c)
      | _ => exact (continuous_const : Continuous fun _ : EArg nx nq → ℝ => (0 : ℝ))
    | _ => exact (continuous_const : Continuous fun _ : EArg nx nq → ℝ => (0 : ℝ))
  | xf k =>
    cases a with
    | tf =>
      cases b with
      | xf c => exact (dAdexp_continuous' h ef dx k c : Continuous fun z : EArg nx nq → ℝ => dAdexp L (fun c => z (.xf c)) (xl.d (z .tf)) k c)
      | _ => exact (continuous_const : Continuous fun _ : EArg nx nq → ℝ => (0 : ℝ))
    | xf r =>
      cases b with
      | xf c => exact ((d2rExp_continuous h k r c).comp ef : Continuous fun z : EArg nx nq → ℝ => L.d2rExp (fun c => z (.xf c)) k r c)
      | _ => exact (continuous_const : Continuous fun _ : EArg nx nq → ℝ => (0 : ℝ))
    | _ => exact (continuous_const : Continuous fun _ : EArg nx nq → ℝ => (0 : ℝ))

theorem gTE_continuous (h : IsLie L mat hat) {xl : Traj X ℝ nx} (hx : Continuous xl.d) (k a : EArg nx nq) : Continuous fun z => gTE L xl z k a := by
  have e0 : Continuous fun z : EArg nx nq → ℝ => fun c => z (.x0 c) := continuous_pi fun c => continuous_apply _
  have ef : Continuous fun z : EArg nx nq → ℝ => fun c => z (.xf c) := continuous_pi fun c => continuous_apply _
  have dx : Continuous fun z : EArg nx nq → ℝ => xl.d (z .tf) := hx.comp (continuous_apply _)
  cases k with
  | tf => cases a <;> simp only [gTE, jopTE] <;> exact continuous_const
  | q k => cases a <;> simp only [gTE, jopTE] <;> exact continuous_const
  | x0 k =>
    cases a with
    | x0 r => exact ((drExp_continuous h k r).comp e0 : Continuous fun z : EArg nx nq → ℝ => L.drExp (fun c => z (.x0 c)) k r)
    | _ => exact (continuous_const : Continuous fun _ : EArg nx nq → ℝ => (0 : ℝ))
  | xf k =>
    cases a with
    | tf => exact (adVel_continuous' h ef dx k : Continuous fun z : EArg nx nq → ℝ => adVel L (fun c => z (.xf c)) (xl.d (z .tf)) k)
    | xf r => exact ((drExp_continuous h k r).comp ef : Continuous fun z : EArg nx nq → ℝ => L.drExp (fun c => z (.xf c)) k r)
    | _ => exact (continuous_const : Continuous fun _ : EArg nx nq → ℝ => (0 : ℝ))

end Verif.Flatten
