import Verif.Props.FlattenDeriv
import Verif.Props.FlattenSeries
import Verif.Proofs.FlattenDyn

/-! # Derivatives of the flattened dynamics -/

set_option linter.unusedSectionVars false

namespace Verif.Flatten

open Verif.Sparse Verif.Lie Verif.MeshFn Verif.NLP

open scoped Matrix

variable {X U 𝔸 𝔹 : Type*} {nx nu : ℕ} [NormedRing 𝔸] [NormedAlgebra ℝ 𝔸] [FiniteDimensional ℝ 𝔸] [CompleteSpace 𝔸]
  [NormedRing 𝔹] [NormedAlgebra ℝ 𝔹] [FiniteDimensional ℝ 𝔹] [CompleteSpace 𝔹]
  {LX : LieOps X ℝ nx} {LU : LieOps U ℝ nu} {mat : X → 𝔸} {hat : (Fin nx → ℝ) →ₗ[ℝ] 𝔸} {matU : U → 𝔹} {hatU : (Fin nu → ℝ) →ₗ[ℝ] 𝔹}
  {f : GFn X U ℝ nx} {xl : Traj X ℝ nx} {ul : Traj U ℝ nu} {ddx : ℝ → Fin nx → ℝ} {ddu : ℝ → Fin nu → ℝ}

theorem gen_antisymm (h : IsLie LX mat hat) (i j k : Fin nx) : LX.gen i j k = -LX.gen k j i := by
  have h1 : LX.ad (Pi.single i 1) *ᵥ Pi.single k 1 = -(LX.ad (Pi.single k 1) *ᵥ Pi.single i 1) := by
    refine h.hat_inj ?_
    rw [map_neg, h.ad, h.ad]
    noncomm_ring
  have h2 : ∀ i k, (LX.ad (Pi.single i 1) *ᵥ Pi.single k 1) j = LX.gen i j k := by
    intro i k
    rw [Matrix.mulVec_single_one, Matrix.col_apply, ad_apply h]
    simp [Pi.single_apply]
  rw [← h2, h1, Pi.neg_apply, h2]

/-- `φ c` for the argument `e_c`, and zero for the others. -/
def onX (a : Arg nx nu) (φ : Fin nx → ℝ) : ℝ :=
  match a with
  | .x c => φ c
  | _ => 0

/-- The point of a call. -/
abbrev eOf (p : Arg nx nu → ℝ) : Fin nx → ℝ := fun k => p (.x k)

theorem ad_hasPd (h : IsLie LX mat hat) (p : Arg nx nu → ℝ) (j k : Fin nx) :
    HasPd (fun p => LX.ad (eOf p) j k) (fun b => onX b fun c => LX.gen c j k) p := by
  have : HasPd (fun p : Arg nx nu → ℝ => ∑ c, p (.x c) * LX.gen c j k) (fun b => ∑ c, ((if Arg.x c = b then 1 else 0) * LX.gen c j k + p (.x c) * 0)) p :=
    HasPd.sum fun c _ => (hasPd_coord (Arg.x c) p).mul (hasPd_const _ p)
  have e1 : (fun p : Arg nx nu → ℝ => LX.ad (eOf p) j k) = fun p => ∑ c, p (.x c) * LX.gen c j k := funext fun p => ad_apply h _ _ _
  rw [e1]
  refine this.of_eq fun b => ?_
  cases b <;> simp [onX]

/-- `f(t, x, u)` at the flattened point. -/
noncomputable abbrev wOf (LX : LieOps X ℝ nx) (LU : LieOps U ℝ nu) (f : GFn X U ℝ nx) (xl : Traj X ℝ nx) (ul : Traj U ℝ nu) (p : Arg nx nu → ℝ) : Fin nx → ℝ :=
  innerVal LX LU f xl ul (p .t) (eOf p) (fun k => p (.u k)) - xl.d (p .t)

noncomputable abbrev jOf (LX : LieOps X ℝ nx) (LU : LieOps U ℝ nu) (f : GFn X U ℝ nx) (xl : Traj X ℝ nx) (ul : Traj U ℝ nu) (p : Arg nx nu → ℝ) :
    Fin nx → Arg nx nu → ℝ := innerJ LX LU f xl ul (p .t) (eOf p) fun k => p (.u k)

noncomputable abbrev hOf (LX : LieOps X ℝ nx) (LU : LieOps U ℝ nu) (f : GFn X U ℝ nx) (xl : Traj X ℝ nx) (ul : Traj U ℝ nu) (p : Arg nx nu → ℝ) :
    Fin nx → Arg nx nu → Arg nx nu → ℝ := innerH LX LU f xl ul (p .t) (eOf p) fun k => p (.u k)

theorem wOf_hasPd (h : IsLie LX mat hat) (h' : IsLie LU matU hatU) (hf : IsDrG LX LU f) (hx : IsTraj2 mat hat xl ddx)
    (hu : IsTraj2 matU hatU ul ddu) (p : Arg nx nu → ℝ) (j : Fin nx) :
    HasPd (fun p => wOf LX LU f xl ul p j) (fun a => jOf LX LU f xl ul p j a - if a = .t then ddx (p .t) j else 0) p := by
  have h1 := (flat_inner_jacobian h h' hf hx.vel hu.vel p j).of_eq fun a => (flatInner_spec LX LU hf.shape xl ul p).2.1 j a
  refine (h1.sub (vel_hasPd .t (hx.acc _) j)).of_eq fun a => ?_
  cases a <;> simp

theorem jOf_hasPd (h : IsLie LX mat hat) (h' : IsLie LU matU hatU) (hf : IsDrG LX LU f) (hx : IsTraj2 mat hat xl ddx)
    (hu : IsTraj2 matU hatU ul ddu) (p : Arg nx nu → ℝ) (j : Fin nx) (a : Arg nx nu) (ha : a ≠ .t ∨ ddx (p .t) = 0 ∧ ddu (p .t) = 0) :
    HasPd (fun p => jOf LX LU f xl ul p j a) (fun b => hOf LX LU f xl ul p j a b) p := by
  have e0 : (fun p => ((flatInner LX LU f xl ul).jac p).val j a.pos) = fun p => jOf LX LU f xl ul p j a :=
    funext fun p => (flatInner_spec LX LU hf.shape xl ul p).2.1 j a
  have h1 := flat_inner_hessian h h' hf hx hu p j a
  rw [e0] at h1
  refine h1.of_eq fun b => ?_
  have e1 := (flatInner_spec LX LU hf.shape xl ul p).2.2 j a b
  change ((flatInner LX LU f xl ul).hess p).val a.pos ((1 + nx + nu) * j + b.pos) = _ at e1
  rw [e1]
  rcases ha with ha | ha
  · rw [if_neg fun hab => ha hab.1, add_zero]
  · have z1 : ∀ k, adVel LX (fun k => p (.x k)) (0 : Fin nx → ℝ) k = 0 := adVel_zero LX _
    have z2 : ∀ k, adVel LU (fun k => p (.u k)) (0 : Fin nu → ℝ) k = 0 := adVel_zero LU _
    simp [ha.1, ha.2, z1, z2]

theorem itV_hasPd (h : IsLie LX mat hat) (h' : IsLie LU matU hatU) (hf : IsDrG LX LU f) (hx : IsTraj2 mat hat xl ddx)
    (hu : IsTraj2 matU hatU ul ddu) (p : Arg nx nu → ℝ) (n : ℕ) (j : Fin nx) :
    HasPd (fun p => itV LX (eOf p) (wOf LX LU f xl ul p) n j) (fun a => itJ LX (eOf p) (wOf LX LU f xl ul p) (jOf LX LU f xl ul p) n j a -
      if a = .t then itV LX (eOf p) (ddx (p .t)) n j else 0) p := by
  induction n generalizing j with
  | zero => exact wOf_hasPd h h' hf hx hu p j
  | succ n ih =>
    have h1 : HasPd (fun p => ∑ k, LX.ad (eOf p) j k * itV LX (eOf p) (wOf LX LU f xl ul p) n k) _ p :=
      HasPd.sum (s := Finset.univ) fun k _ => (ad_hasPd h p j k).mul (ih k)
    refine h1.of_eq fun a => ?_
    rw [Finset.sum_add_distrib]
    have e1 : ∑ k, LX.ad (eOf p) j k * (itJ LX (eOf p) (wOf LX LU f xl ul p) (jOf LX LU f xl ul p) n k a -
        if a = .t then itV LX (eOf p) (ddx (p .t)) n k else 0) = (∑ k, LX.ad (eOf p) j k * itJ LX (eOf p) (wOf LX LU f xl ul p) (jOf LX LU f xl ul p) n k a) -
        if a = .t then itV LX (eOf p) (ddx (p .t)) (n + 1) j else 0 := by
      by_cases ha : a = .t
      · simp only [if_pos ha, mul_sub, Finset.sum_sub_distrib]
        rfl
      · simp only [if_neg ha, sub_zero]
    rw [e1, add_comm, sub_add_eq_add_sub]
    refine congrArg₂ (fun x y : ℝ => x - y) (congrArg₂ (fun x y : ℝ => x + y) rfl ?_) rfl
    cases a with
    | t => simp [onX]
    | u k => simp [onX]
    | x c =>
      dsimp only [onX]
      rw [ad_apply h, ← Finset.sum_neg_distrib]
      refine Finset.sum_congr rfl fun k _ => ?_
      rw [gen_antisymm h]
      ring

theorem itJ_hasPd (h : IsLie LX mat hat) (h' : IsLie LU matU hatU) (hf : IsDrG LX LU f) (hx : IsTraj2 mat hat xl ddx)
    (hu : IsTraj2 matU hatU ul ddu) (p : Arg nx nu → ℝ) (a : Arg nx nu) (ha : a ≠ .t ∨ ddx (p .t) = 0 ∧ ddu (p .t) = 0) (n : ℕ) :
    ∃ τ : Fin nx → ℝ, (ddx (p .t) = 0 → τ = 0) ∧ ∀ j,
    HasPd (fun p => itJ LX (eOf p) (wOf LX LU f xl ul p) (jOf LX LU f xl ul p) n j a)
      (fun b => itH LX (eOf p) (wOf LX LU f xl ul p) (jOf LX LU f xl ul p) (hOf LX LU f xl ul p) n j a b + if b = .t then τ j else 0) p := by
  induction n with
  | zero => exact ⟨0, fun _ => rfl, fun j => (jOf_hasPd h h' hf hx hu p j a ha).of_eq fun b => by simp [itH]⟩
  | succ n ih =>
    obtain ⟨τ, hτ, ih⟩ := ih
    refine ⟨fun j => (∑ k, LX.ad (eOf p) j k * τ k) + onX a fun c => ∑ m, itV LX (eOf p) (ddx (p .t)) n m * LX.gen m j c, fun h0 => ?_, fun j => ?_⟩
    · funext j
      rw [hτ h0, h0]
      have hz : ∀ n m, itV LX (eOf p) (0 : Fin nx → ℝ) n m = 0 := by
        intro n
        induction n with
        | zero => exact fun _ => rfl
        | succ n ih =>
          intro m
          change (LX.ad (eOf p) *ᵥ itV LX (eOf p) 0 n) m = 0
          rw [show itV LX (eOf p) (0 : Fin nx → ℝ) n = 0 from funext ih, Matrix.mulVec_zero]; rfl
      cases a <;> simp [hz, onX]
    · have h1 : HasPd (fun p => ∑ k, LX.ad (eOf p) j k * itJ LX (eOf p) (wOf LX LU f xl ul p) (jOf LX LU f xl ul p) n k a) _ p :=
        HasPd.sum (s := Finset.univ) fun k _ => (ad_hasPd h p j k).mul (ih k)
      have h2 : HasPd (fun p => onX a fun c => -LX.ad (itV LX (eOf p) (wOf LX LU f xl ul p) n) j c) (fun b => onX a fun c => -∑ m, (itJ LX (eOf p) (wOf LX LU f xl ul p) (jOf LX LU f xl ul p) n m b -
              if b = .t then itV LX (eOf p) (ddx (p .t)) n m else 0) * LX.gen m j c) p := by
        cases a with
        | t => exact hasPd_const 0 p
        | u k => exact hasPd_const 0 p
        | x c =>
          have e1 : (fun p => LX.ad (itV LX (eOf p) (wOf LX LU f xl ul p) n) j c) = fun p => ∑ m, itV LX (eOf p) (wOf LX LU f xl ul p) n m * LX.gen m j c :=
            funext fun p => ad_apply h _ _ _
          have h3 : HasPd (fun p => ∑ m, itV LX (eOf p) (wOf LX LU f xl ul p) n m * LX.gen m j c) _ p :=
            HasPd.sum (s := Finset.univ) fun m _ => (itV_hasPd h h' hf hx hu p n m).mul (hasPd_const (LX.gen m j c) p)
          rw [← e1] at h3
          exact h3.neg.of_eq fun b => by simp [onX]
      refine (h1.add h2).of_eq fun b => ?_
      rw [Finset.sum_add_distrib]
      have e1 : ∑ k, LX.ad (eOf p) j k * (itH LX (eOf p) (wOf LX LU f xl ul p) (jOf LX LU f xl ul p) (hOf LX LU f xl ul p) n k a b +
          if b = .t then τ k else 0) = (∑ k, LX.ad (eOf p) j k * itH LX (eOf p) (wOf LX LU f xl ul p) (jOf LX LU f xl ul p) (hOf LX LU f xl ul p) n k a b) +
          if b = .t then ∑ k, LX.ad (eOf p) j k * τ k else 0 := by
        by_cases hb : b = .t
        · simp only [if_pos hb, mul_add, Finset.sum_add_distrib]
        · simp only [if_neg hb, add_zero]
      rw [e1]
      have e2 : (∑ k, (onX b fun c => LX.gen c j k) * itJ LX (eOf p) (wOf LX LU f xl ul p) (jOf LX LU f xl ul p) n k a) =
          onX b fun c => -∑ m, itJ LX (eOf p) (wOf LX LU f xl ul p) (jOf LX LU f xl ul p) n m a * LX.gen m j c := by
        cases b with
        | t => simp [onX]
        | u k => simp [onX]
        | x c =>
          dsimp only [onX]
          rw [← Finset.sum_neg_distrib]
          refine Finset.sum_congr rfl fun k _ => ?_
          rw [gen_antisymm h]
          ring
      have e3 : (onX a fun c => -∑ m, (itJ LX (eOf p) (wOf LX LU f xl ul p) (jOf LX LU f xl ul p) n m b -
              if b = .t then itV LX (eOf p) (ddx (p .t)) n m else 0) * LX.gen m j c) =
          (onX a fun r => ∑ m, LX.gen r j m * itJ LX (eOf p) (wOf LX LU f xl ul p) (jOf LX LU f xl ul p) n m b) +
            if b = .t then (onX a fun c => ∑ m, itV LX (eOf p) (ddx (p .t)) n m * LX.gen m j c) else 0 := by
        cases a with
        | t => simp [onX]
        | u k => simp [onX]
        | x c =>
          dsimp only [onX]
          have e4 : ∀ m, (itJ LX (eOf p) (wOf LX LU f xl ul p) (jOf LX LU f xl ul p) n m b - if b = .t then itV LX (eOf p) (ddx (p .t)) n m else 0) * LX.gen m j c =
              -(LX.gen c j m * itJ LX (eOf p) (wOf LX LU f xl ul p) (jOf LX LU f xl ul p) n m b) -
                if b = .t then itV LX (eOf p) (ddx (p .t)) n m * LX.gen m j c else 0 := by
            intro m
            rw [gen_antisymm h c j m]
            split_ifs <;> ring
          simp only [e4, Finset.sum_sub_distrib, Finset.sum_neg_distrib]
          split_ifs <;> simp [add_comm]
      rw [e2, e3]
      change _ = (∑ k, LX.ad (eOf p) j k * itH LX (eOf p) (wOf LX LU f xl ul p) (jOf LX LU f xl ul p) (hOf LX LU f xl ul p) n k a b) +
        ((onX a fun r => ∑ m, LX.gen r j m * itJ LX (eOf p) (wOf LX LU f xl ul p) (jOf LX LU f xl ul p) n m b) +
          onX b fun c => -∑ m, itJ LX (eOf p) (wOf LX LU f xl ul p) (jOf LX LU f xl ul p) n m a * LX.gen m j c) + _
      by_cases hb : b = .t
      · simp only [if_pos hb]; ring
      · simp only [if_neg hb]; ring

/-! ### The truncated series -/

theorem itV_eq (e w : Fin nx → ℝ) (n : ℕ) : itV LX e w n = (LX.ad e ^ n) *ᵥ w := by
  induction n with
  | zero => rw [pow_zero, Matrix.one_mulVec]; rfl
  | succ n ih => rw [pow_succ', ← Matrix.mulVec_mulVec, ← ih]; rfl

theorem kBn_getD {n : ℕ} (hn : n < 23) : (kBn : List ℝ).getD n 0 = ((bernoulli n : ℚ) : ℝ) := by
  rw [bernoulli_table_field, List.getD_eq_getElem?_getD, List.getElem?_map, List.getElem?_range hn]
  rfl

/-- The coefficients of the series. -/
noncomputable def cf (n : ℕ) : ℝ := ((bernoulli n : ℚ) : ℝ) * (-1) ^ n / n.factorial

theorem truncDyn_eq (p : Arg nx nu → ℝ) (j : Fin nx) : truncDyn LX LU f xl ul p j =
    (∑ n ∈ Finset.range 23, cf n * itV LX (eOf p) (wOf LX LU f xl ul p) n j) + ∑ r, LX.ad (eOf p) j r * xl.d (p .t) r := by
  refine congrArg₂ (fun x y : ℝ => x + y) ?_ rfl
  change (truncInv LX (eOf p) *ᵥ wOf LX LU f xl ul p) j = _
  unfold truncInv
  rw [Matrix.sum_mulVec, Finset.sum_apply]
  refine Finset.sum_congr rfl fun n _ => ?_
  rw [Matrix.smul_mulVec, Pi.smul_apply, smul_eq_mul, ← itV_eq]
  rfl

/-- The first derivatives of the truncated dynamics. -/
noncomputable def truncJ (LX : LieOps X ℝ nx) (LU : LieOps U ℝ nu) (f : GFn X U ℝ nx) (xl : Traj X ℝ nx) (ul : Traj U ℝ nu) (ddx : ℝ → Fin nx → ℝ)
    (p : Arg nx nu → ℝ) (j : Fin nx) (a : Arg nx nu) : ℝ :=
  (∑ n ∈ Finset.range 23, cf n * (itJ LX (eOf p) (wOf LX LU f xl ul p) (jOf LX LU f xl ul p) n j a -
    if a = .t then itV LX (eOf p) (ddx (p .t)) n j else 0)) +
    ((onX a fun c => ∑ r, LX.gen c j r * xl.d (p .t) r) + if a = .t then ∑ r, LX.ad (eOf p) j r * ddx (p .t) r else 0)

theorem adx_hasPd (h : IsLie LX mat hat) (hx : IsTraj2 mat hat xl ddx) (p : Arg nx nu → ℝ) (j : Fin nx) :
    HasPd (fun p => ∑ r, LX.ad (eOf p) j r * xl.d (p .t) r) (fun a => (onX a fun c => ∑ r, LX.gen c j r * xl.d (p .t) r) +
      if a = .t then ∑ r, LX.ad (eOf p) j r * ddx (p .t) r else 0) p := by
  refine (HasPd.sum (s := Finset.univ) fun r _ => (ad_hasPd h p j r).mul (vel_hasPd Arg.t (hx.acc _) r)).of_eq fun a => ?_
  cases a <;> simp [onX]

theorem truncDyn_hasPd (h : IsLie LX mat hat) (h' : IsLie LU matU hatU) (hf : IsDrG LX LU f) (hx : IsTraj2 mat hat xl ddx)
    (hu : IsTraj2 matU hatU ul ddu) (p : Arg nx nu → ℝ) (j : Fin nx) :
    HasPd (fun p => truncDyn LX LU f xl ul p j) (truncJ LX LU f xl ul ddx p j) p := by
  simp only [truncDyn_eq]
  refine HasPd.of_eq (HasPd.add (HasPd.sum fun n _ => (hasPd_const (cf n) p).mul (itV_hasPd h h' hf hx hu p n j)) (adx_hasPd h hx p j)) fun a => ?_
  unfold truncJ
  refine congrArg₂ (fun x y : ℝ => x + y) (Finset.sum_congr rfl fun n _ => ?_) rfl
  rw [zero_mul, zero_add]

/-- The computed second derivatives. -/
theorem dynH_eq (p : Arg nx nu → ℝ) (j : Fin nx) (a b : Arg nx nu) : dynH LX LU f xl ul (p .t) (eOf p) (fun k => p (.u k)) j a b =
    ∑ n ∈ Finset.range 23, cf n * itH LX (eOf p) (wOf LX LU f xl ul p) (jOf LX LU f xl ul p) (hOf LX LU f xl ul p) n j a b := by
  unfold dynH
  refine Finset.sum_congr rfl fun n hn => ?_
  rw [kBn_getD (Finset.mem_range.1 hn), cf, mul_div_assoc]

theorem truncJ_hasPd (h : IsLie LX mat hat) (h' : IsLie LU matU hatU) (hf : IsDrG LX LU f) (hx : IsTraj2 mat hat xl ddx)
    (hu : IsTraj2 matU hatU ul ddu) (p : Arg nx nu → ℝ) (j : Fin nx) (a : Arg nx nu)
    (ha : a ≠ .t ∨ (∀ t, ddx t = 0) ∧ ddu (p .t) = 0) :
    ∃ τ : ℝ, ((∀ t, ddx t = 0) → τ = 0) ∧ HasPd (fun p => truncJ LX LU f xl ul ddx p j a)
      (fun b => dynH LX LU f xl ul (p .t) (eOf p) (fun k => p (.u k)) j a b + if b = .t then τ else 0) p := by
  choose τ h0 hτ using fun n => itJ_hasPd h h' hf hx hu p a (ha.imp id fun h => ⟨h.1 _, h.2⟩) n
  have e1 : (fun p => truncJ LX LU f xl ul ddx p j a) = fun p =>
      (∑ n ∈ Finset.range 23, cf n * itJ LX (eOf p) (wOf LX LU f xl ul p) (jOf LX LU f xl ul p) n j a) + onX a fun c => ∑ r, LX.gen c j r * xl.d (p .t) r := by
    funext p
    unfold truncJ
    rcases ha with ha | ha
    · simp only [if_neg ha, sub_zero, add_zero]
    · have hz : ∀ n, itV LX (eOf p) (0 : Fin nx → ℝ) n j = 0 := by
        intro n
        rw [itV_eq, Matrix.mulVec_zero]; rfl
      simp [ha.1, hz]
  have h2 : HasPd (fun p => onX a fun c => ∑ r, LX.gen c j r * xl.d (p .t) r) (fun b => if b = .t then onX a fun c => ∑ r, LX.gen c j r * ddx (p .t) r else 0) p := by
    cases a with
    | t => exact (hasPd_const 0 p).of_eq fun b => by simp [onX]
    | u k => exact (hasPd_const 0 p).of_eq fun b => by simp [onX]
    | x c =>
      have : HasPd (fun p : Arg nx nu → ℝ => ∑ r, LX.gen c j r * xl.d (p .t) r) _ p :=
        HasPd.sum (s := Finset.univ) fun r _ => (hasPd_const (LX.gen c j r) p).mul (vel_hasPd Arg.t (hx.acc _) r)
      refine this.of_eq fun b => ?_
      cases b <;> simp [onX]
  rw [e1]
  refine ⟨(∑ n ∈ Finset.range 23, cf n * τ n j) + onX a fun c => ∑ r, LX.gen c j r * ddx (p .t) r, fun hz => ?_, ?_⟩
  · have : ∀ n, τ n j = 0 := fun n => by rw [h0 n (hz _)]; rfl
    cases a <;> simp [this, hz, onX]
  · refine HasPd.of_eq (HasPd.add (HasPd.sum fun n _ => (hasPd_const (cf n) p).mul (hτ n j)) h2) fun b => ?_
    rw [dynH_eq]
    simp only [zero_mul, zero_add, mul_add, Finset.sum_add_distrib]
    by_cases hb : b = .t
    · simp only [if_pos hb]; ring
    · simp [if_neg hb]

end Verif.Flatten
