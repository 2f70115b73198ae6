import Verif.Proofs.LieSecond

/-! # The cost of the quadratic program of a problem on Lie groups (C82) -/

set_option linter.unusedSectionVars false

namespace Verif.OQP

open Verif.Mesh Verif.Sparse Verif.MeshFn Verif.NLP Verif.QP Verif.QPSpec Verif.Lie Verif.Flatten
open scoped Matrix Topology

variable {X U 𝔸 𝔹 : Type*} [NormedRing 𝔸] [NormedAlgebra ℝ 𝔸] [FiniteDimensional ℝ 𝔸] [CompleteSpace 𝔸] [NormedRing 𝔹] [NormedAlgebra ℝ 𝔹]
  [FiniteDimensional ℝ 𝔹] [CompleteSpace 𝔹]
  {N nx nu ncr nce nf : ℕ} {LX : LieOps X ℝ nx} {LU : LieOps U ℝ nu} {mat : X → 𝔸} {hat : (Fin nx → ℝ) →ₗ[ℝ] 𝔸} {matU : U → 𝔹}
  {hatU : (Fin nu → ℝ) →ₗ[ℝ] 𝔹} {lin : GLin X U ℝ nx}

/-- The deviation at a collocation point, as a linear map. -/
noncomputable def liftN (i : Fin N) : (QVar N nx nu → ℝ) →L[ℝ] (Arg nx nu → ℝ) := LinearMap.toContinuousLinearMap
  { toFun := fun z => dev z i
    map_add' := fun x y => by funext v; cases v <;> simp [dev]
    map_smul' := fun c x => by funext v; cases v <;> simp [dev] }

theorem liftN_apply (i : Fin N) (z : QVar N nx nu → ℝ) : liftN i z = dev z i := rfl

theorem trajCostG_eq (env : Mesh.Env ℝ) (m : Mesh ℝ) (ocp : GOCP X U ℝ nx 1 ncr nce) (tf b : ℝ) (hb : LinearInIntegralG ocp.theta b) :
    trajCostG LX LU env m ocp lin tf = fun z => ends LX ocp.theta lin tf (0 + liftE z) 0 +
      b * ((∑ i : Fin (nColloc m), (wAt env m i * tf) * along LX LU ocp.g lin (tf * tauAt env m i) (0 + liftN i z) 0) - 1) := by
  funext z
  unfold trajCostG
  rw [hb _ _ _ 1]
  congr 1
  · rw [zero_add, liftE_apply]
    unfold ends
    simp only [devEnd, add_zero]
  · congr 2
    refine Finset.sum_congr rfl fun i _ => ?_
    rw [zero_add, liftN_apply, mul_assoc]
    rfl

/-- The derivative and the second derivative of a sum of functions of linear maps. -/
theorem sum_derivs {ι : Type*} [Fintype ι] [DecidableEq ι] {κ η : Type*} [Fintype κ] [DecidableEq κ] [Fintype η] [DecidableEq η] {n : ℕ} {g : (κ → ℝ) → ℝ} {f : Fin n → (η → ℝ) → ℝ} (hg : ContDiff ℝ 2 g)
    (hf : ∀ i, ContDiff ℝ 2 (f i)) (K : (ι → ℝ) →L[ℝ] (κ → ℝ)) (L : Fin n → (ι → ℝ) →L[ℝ] (η → ℝ)) (b : ℝ) (c : Fin n → ℝ) (d : ι → ℝ) :
    fderiv ℝ (fun z => g (0 + K z) + b * ((∑ i, c i * f i (0 + L i z)) - 1)) 0 d = fderiv ℝ g 0 (K d) + b * ∑ i, c i * fderiv ℝ (f i) 0 (L i d) ∧
    second (fun z => g (0 + K z) + b * ((∑ i, c i * f i (0 + L i z)) - 1)) 0 d = second g 0 (K d) + b * ∑ i, c i * second (f i) 0 (L i d) := by
  have hg1 := contDiff_differentiable hg
  have hf1 := fun i => contDiff_differentiable (hf i)
  have d1 : ∀ y, DifferentiableAt ℝ (fun z => g (0 + K z)) y := fun y => (hg1 _).comp y (K.differentiableAt.const_add 0)
  have d2 : ∀ i y, DifferentiableAt ℝ (fun z => f i (0 + L i z)) y := fun i y => (hf1 i _).comp y ((L i).differentiableAt.const_add 0)
  have d3 : ∀ y, DifferentiableAt ℝ (fun z => ∑ i, c i * f i (0 + L i z)) y := fun y => DifferentiableAt.fun_sum fun i _ => (d2 i y).const_mul (c i)
  have key : ∀ y, fderiv ℝ (fun z => g (0 + K z) + b * ((∑ i, c i * f i (0 + L i z)) - 1)) y d =
      fderiv ℝ g (0 + K y) (K d) + b * ∑ i, c i * fderiv ℝ (f i) (0 + L i y) (L i d) := by
    intro y
    rw [fderiv_fun_add (d1 y) (((d3 y).sub_const 1).const_mul b), fderiv_const_mul ((d3 y).sub_const 1), fderiv_sub_const,
      fderiv_fun_sum fun i _ => (d2 i y).const_mul (c i)]
    simp only [ContinuousLinearMap.add_apply, ContinuousLinearMap.smul_apply, smul_eq_mul, ContinuousLinearMap.sum_apply]
    rw [fderiv_affine hg1]
    congr 2
    refine Finset.sum_congr rfl fun i _ => ?_
    rw [fderiv_const_mul (d2 i y), ContinuousLinearMap.smul_apply, smul_eq_mul, fderiv_affine (hf1 i)]
  refine ⟨by rw [key]; simp only [map_zero, add_zero], ?_⟩
  have e1 := dir_differentiable hg (K d)
  have e2 := fun i => dir_differentiable (hf i) (L i d)
  have k1 : DifferentiableAt ℝ (fun y => fderiv ℝ g (0 + K y) (K d)) 0 := (e1 _).comp 0 (K.differentiableAt.const_add 0)
  have k2 : ∀ i, DifferentiableAt ℝ (fun y => fderiv ℝ (f i) (0 + L i y) (L i d)) 0 := fun i => (e2 i _).comp 0 ((L i).differentiableAt.const_add 0)
  have k3 : DifferentiableAt ℝ (fun y => ∑ i, c i * fderiv ℝ (f i) (0 + L i y) (L i d)) 0 := DifferentiableAt.fun_sum fun i _ => (k2 i).const_mul (c i)
  unfold second
  simp only [key]
  rw [fderiv_fun_add k1 (k3.const_mul b), fderiv_const_mul k3, fderiv_fun_sum fun i _ => (k2 i).const_mul (c i)]
  simp only [ContinuousLinearMap.add_apply, ContinuousLinearMap.smul_apply, smul_eq_mul, ContinuousLinearMap.sum_apply]
  rw [fderiv_affine e1, map_zero, add_zero]
  congr 2
  refine Finset.sum_congr rfl fun i _ => ?_
  rw [fderiv_const_mul (k2 i), ContinuousLinearMap.smul_apply, smul_eq_mul, fderiv_affine (e2 i), map_zero, add_zero]

/-- A quadratic form of which only the upper triangle is read. -/
theorem upper_form (M : QVar N nx nu → QVar N nx nu → ℝ) (z : QVar N nx nu → ℝ) :
    ∑ v, ∑ w, (if v.pos ≤ w.pos then M v w else M w v) * z v * z w =
      ∑ v, ∑ w, M v w * z v * z w + ∑ v, ∑ w, (if w.pos < v.pos then M w v - M v w else 0) * z v * z w := by
  simp only [← Finset.sum_add_distrib]
  refine Finset.sum_congr rfl fun v _ => Finset.sum_congr rfl fun w _ => ?_
  by_cases h : v.pos ≤ w.pos
  · rw [if_pos h, if_neg (not_lt.2 h)]; ring
  · rw [if_neg h, if_pos (not_le.1 h)]; ring

theorem sum_pullNN (i : Fin N) (φ : Arg nx nu → Arg nx nu → ℝ) (z : QVar N nx nu → ℝ) :
    ∑ v, ∑ w, pullN i (fun a => pullN i (fun b => φ a b) w) v * z v * z w = ∑ a, ∑ b, φ a b * dev z i a * dev z i b := by
  have h1 : ∀ w, ∑ v, pullN i (fun a => pullN i (fun b => φ a b) w) v * z v * z w = (∑ a, pullN i (fun b => φ a b) w * dev z i a) * z w := by
    intro w
    rw [← Finset.sum_mul, ← sum_pullN i (fun a => pullN i (fun b => φ a b) w)]
  rw [Finset.sum_comm]
  simp only [h1, Finset.sum_mul]
  rw [Finset.sum_comm]
  refine Finset.sum_congr rfl fun a _ => ?_
  have h2 := sum_pullN i (φ a) z
  calc ∑ w, pullN i (fun b => φ a b) w * dev z i a * z w = (∑ w, pullN i (φ a) w * z w) * dev z i a := by
        rw [Finset.sum_mul]; exact Finset.sum_congr rfl fun w _ => by ring
    _ = _ := by rw [h2, Finset.sum_mul]; exact Finset.sum_congr rfl fun w _ => by ring

/-- The order of the variables is that of the arguments, at a collocation point. -/
theorem pullNN_lt (i : Fin N) (φ : Arg nx nu → Arg nx nu → ℝ) (v w : QVar N nx nu) :
    (if w.pos < v.pos then pullN i (fun a => pullN i (fun b => φ a b) w) v else 0) =
      pullN i (fun a => pullN i (fun b => if b.pos < a.pos then φ a b else 0) w) v := by
  cases v with
  | x j k =>
    cases w with
    | x j' k' =>
      by_cases h : j = i.castSucc <;> by_cases h' : j' = i.castSucc <;> simp [pullN, h, h', QVar.pos, Arg.pos]
    | u j' k' =>
      have h1 := row_le j k
      have h2 : ¬(QVar.u j' k' : QVar N nx nu).pos < (QVar.x j k : QVar N nx nu).pos := by simp only [QVar.pos]; omega
      have h3 : ¬(Arg.u k' : Arg nx nu).pos < (Arg.x k : Arg nx nu).pos := by simp only [Arg.pos]; omega
      rw [if_neg h2]
      simp only [pullN, if_neg h3, ite_self]
  | u j k =>
    cases w with
    | x j' k' =>
      have h1 := row_le j' k'
      have h2 : (QVar.x j' k' : QVar N nx nu).pos < (QVar.u j k : QVar N nx nu).pos := by simp only [QVar.pos]; omega
      have h3 : (Arg.x k' : Arg nx nu).pos < (Arg.u k : Arg nx nu).pos := by simp only [Arg.pos]; omega
      rw [if_pos h2]
      simp only [pullN, if_pos h3]
    | u j' k' =>
      by_cases h : j = i <;> by_cases h' : j' = i <;> simp [pullN, h, h', QVar.pos, Arg.pos]

/-- The order of the variables is that of the arguments, at the end points. -/
theorem pullQQ_lt (hN : 1 ≤ N) (φ : EArg nx 1 → EArg nx 1 → ℝ) (v w : QVar N nx nu) :
    (if w.pos < v.pos then pullQQ φ v w else 0) = pullQQ (fun a b => if b.pos < a.pos then φ a b else 0) v w := by
  have h0 : (0 : Fin (N + 1)) ≠ Fin.last N := by
    intro e
    have := congrArg Fin.val e
    simp at this
    omega
  cases v with
  | u j k => simp [pullQQ, pullQ]
  | x j k =>
    cases w with
    | u j' k' => simp [pullQQ, pullQ]
    | x j' k' =>
      have hk := k.2
      have hk' := k'.2
      have hmul : nx ≤ nx * N := Nat.le_mul_of_pos_right _ hN
      by_cases a1 : j = 0
      · subst a1
        by_cases b1 : j' = 0
        · subst b1
          simp [pullQQ, pullQ, h0, QVar.pos, EArg.pos]
        · by_cases b2 : j' = Fin.last N
          · subst b2
            have e1 : ¬(QVar.x (Fin.last N) k' : QVar N nx nu).pos < (QVar.x 0 k : QVar N nx nu).pos := by
              simp only [QVar.pos, Fin.val_last, Fin.val_zero]; omega
            have e2 : ¬(EArg.xf k' : EArg nx 1).pos < (EArg.x0 k : EArg nx 1).pos := by simp only [EArg.pos]; omega
            rw [if_neg e1]
            simp [pullQQ, pullQ, h0, h0.symm, e2]
          · simp [pullQQ, pullQ, b1, b2]
      · by_cases a2 : j = Fin.last N
        · subst a2
          by_cases b1 : j' = 0
          · subst b1
            have e1 : (QVar.x 0 k' : QVar N nx nu).pos < (QVar.x (Fin.last N) k : QVar N nx nu).pos := by
              simp only [QVar.pos, Fin.val_last, Fin.val_zero]; omega
            have e2 : (EArg.x0 k' : EArg nx 1).pos < (EArg.xf k : EArg nx 1).pos := by simp only [EArg.pos]; omega
            rw [if_pos e1]
            simp [pullQQ, pullQ, h0, h0.symm, e2]
          · by_cases b2 : j' = Fin.last N
            · subst b2
              simp [pullQQ, pullQ, h0.symm, QVar.pos, EArg.pos]
            · simp [pullQQ, pullQ, b1, b2]
        · simp [pullQQ, pullQ, a1, a2]

theorem pullNN_sub (i : Fin N) (φ ψ : Arg nx nu → Arg nx nu → ℝ) (v w : QVar N nx nu) :
    pullN i (fun a => pullN i (fun b => φ a b) w) v - pullN i (fun a => pullN i (fun b => ψ a b) w) v = pullN i (fun a => pullN i (fun b => φ a b - ψ a b) w) v := by
  cases v <;> cases w <;> simp only [pullN] <;> split_ifs <;> simp

theorem pullNN_swap (i : Fin N) (φ : Arg nx nu → Arg nx nu → ℝ) (v w : QVar N nx nu) :
    pullN i (fun a => pullN i (fun b => φ a b) v) w = pullN i (fun a => pullN i (fun b => φ b a) w) v := by
  cases v <;> cases w <;> simp only [pullN] <;> split_ifs <;> rfl

theorem pullQQ_sub (φ ψ : EArg nx 1 → EArg nx 1 → ℝ) (v w : QVar N nx nu) : pullQQ φ v w - pullQQ ψ v w = pullQQ (fun a b => φ a b - ψ a b) v w := by
  cases v <;> cases w <;> simp only [pullQQ, pullQ] <;> first | exact sub_self _ | (split_ifs <;> ring)

theorem pullQQ_swap (φ : EArg nx 1 → EArg nx 1 → ℝ) (v w : QVar N nx nu) : pullQQ φ w v = pullQQ (fun a b => φ b a) v w := by
  cases v <;> cases w <;> simp only [pullQQ, pullQ] <;> first | rfl | (split_ifs <;> ring)

/-- The difference between a second derivative and its transpose, at a collocation point. -/
theorem skew_sum (h : IsLie LX mat hat) (h' : IsLie LU matU hatU) {f : GFn X U ℝ nf} (hf : IsDrG LX LU f) (t : ℝ) (j : Fin nf) (i : Fin N) (z : QVar N nx nu → ℝ) :
    ∑ a : Arg nx nu, ∑ b : Arg nx nu, (if b.pos < a.pos then (f.hess t (lin.x t) (lin.u t)).val b.pos ((1 + nx + nu) * j + a.pos) -
        (f.hess t (lin.x t) (lin.u t)).val a.pos ((1 + nx + nu) * j + b.pos) else 0) * dev z i a * dev z i b =
      skew LX (fun k => pd (fun δ => along LX LU f lin t δ j) (.x k) 0) (fun k => z (.x i.castSucc k)) +
        skew LU (fun k => pd (fun δ => along LX LU f lin t δ j) (.u k) 0) (fun k => z (.u i k)) := by
  obtain ⟨hc, he⟩ := along_two (lin := lin) h h' hf t j
  set J : Arg nx nu → ℝ := fun a => (f.jac t (lin.x t) (lin.u t)).val j a.pos with hJ
  have hp : ∀ a, pd (fun δ => along LX LU f lin t δ j) a 0 = noT J a := (along_hasPd (lin := lin) hf t j).pd
  have hd : ∀ a b : Arg nx nu, ((f.hess t (lin.x t) (lin.u t)).val b.pos ((1 + nx + nu) * j + a.pos) -
      (f.hess t (lin.x t) (lin.u t)).val a.pos ((1 + nx + nu) * j + b.pos)) * dev z i a * dev z i b = -2 * bend LX LU J b a * dev z i a * dev z i b := by
    intro a b
    have e2 := he b a
    have e3 := bend_antisymm h h' J a b
    rw [pd_comm hc b a, he a b] at e2
    cases a with
    | t => simp [dev]
    | x a => cases b with
      | t => simp [dev]
      | _ =>
        simp only [noT] at e2
        congr 2
        linear_combination -e2 + e3
    | u a => cases b with
      | t => simp [dev]
      | _ =>
        simp only [noT] at e2
        congr 2
        linear_combination -e2 + e3
  have hd' : ∀ a b : Arg nx nu, (if b.pos < a.pos then (f.hess t (lin.x t) (lin.u t)).val b.pos ((1 + nx + nu) * j + a.pos) -
        (f.hess t (lin.x t) (lin.u t)).val a.pos ((1 + nx + nu) * j + b.pos) else 0) * dev z i a * dev z i b =
      (if b.pos < a.pos then -2 * bend LX LU J b a else 0) * dev z i a * dev z i b := by
    intro a b
    by_cases hl : b.pos < a.pos
    · rw [if_pos hl, if_pos hl, hd]
    · rw [if_neg hl, if_neg hl]
  have hl1 : ∀ a b : Fin nx, (Arg.x b : Arg nx nu).pos < (Arg.x a : Arg nx nu).pos ↔ b < a := by
    intro a b
    simp only [Arg.pos, Fin.lt_def]
    omega
  have hl2 : ∀ a b : Fin nu, (Arg.u b : Arg nx nu).pos < (Arg.u a : Arg nx nu).pos ↔ b < a := by
    intro a b
    simp only [Arg.pos, Fin.lt_def]
    omega
  simp only [hd', hp]
  rw [arg_sum_eq]
  simp only [arg_sum_eq, bend, dev, hl1, hl2, noT, mul_zero, zero_mul, ite_self, Finset.sum_const_zero, zero_add, add_zero]
  unfold skew
  congr 1
  · rw [Finset.sum_comm]
    refine Finset.sum_congr rfl fun a _ => Finset.sum_congr rfl fun b _ => ?_
    split_ifs
    · ring
    · ring
  · rw [Finset.sum_comm]
    refine Finset.sum_congr rfl fun a _ => Finset.sum_congr rfl fun b _ => ?_
    split_ifs
    · ring
    · ring

theorem skew_sumE (h : IsLie LX mat hat) {f : GEFn X ℝ 1 nf} (hf : IsDrGE LX f) (tf : ℝ) (j : Fin nf) (z : QVar N nx nu → ℝ) :
    ∑ a : EArg nx 1, ∑ b : EArg nx 1, (if b.pos < a.pos then (f.hess tf (lin.x 0) (lin.x tf) fun _ => 1).val b.pos ((1 + 2 * nx + 1) * j + a.pos) -
        (f.hess tf (lin.x 0) (lin.x tf) fun _ => 1).val a.pos ((1 + 2 * nx + 1) * j + b.pos) else 0) * devEnd z a * devEnd z b =
      skew LX (fun k => pd (fun δ => ends LX f lin tf δ j) (.x0 k) 0) (fun k => z (.x 0 k)) +
        skew LX (fun k => pd (fun δ => ends LX f lin tf δ j) (.xf k) 0) (fun k => z (.x (Fin.last N) k)) := by
  obtain ⟨hc, he⟩ := ends_two (lin := lin) h hf tf j
  set J : EArg nx 1 → ℝ := fun a => (f.jac tf (lin.x 0) (lin.x tf) fun _ => 1).val j a.pos with hJ
  have hp : ∀ a, pd (fun δ => ends LX f lin tf δ j) a 0 = noTE J a := (ends_hasPd (lin := lin) hf tf j).pd
  have hd : ∀ a b : EArg nx 1, ((f.hess tf (lin.x 0) (lin.x tf) fun _ => 1).val b.pos ((1 + 2 * nx + 1) * j + a.pos) -
      (f.hess tf (lin.x 0) (lin.x tf) fun _ => 1).val a.pos ((1 + 2 * nx + 1) * j + b.pos)) * devEnd z a * devEnd z b =
      -2 * bendE LX J b a * devEnd z a * devEnd z b := by
    intro a b
    have e2 := he b a
    have e3 := bendE_antisymm h J a b
    rw [pd_comm hc b a, he a b] at e2
    cases a with
    | tf => simp [devEnd]
    | q a => simp [devEnd]
    | x0 a => cases b with
      | tf => simp [devEnd]
      | _ =>
        simp only [noTE] at e2
        congr 2
        linear_combination -e2 + e3
    | xf a => cases b with
      | tf => simp [devEnd]
      | _ =>
        simp only [noTE] at e2
        congr 2
        linear_combination -e2 + e3
  have hd' : ∀ a b : EArg nx 1, (if b.pos < a.pos then (f.hess tf (lin.x 0) (lin.x tf) fun _ => 1).val b.pos ((1 + 2 * nx + 1) * j + a.pos) -
        (f.hess tf (lin.x 0) (lin.x tf) fun _ => 1).val a.pos ((1 + 2 * nx + 1) * j + b.pos) else 0) * devEnd z a * devEnd z b =
      (if b.pos < a.pos then -2 * bendE LX J b a else 0) * devEnd z a * devEnd z b := by
    intro a b
    by_cases hl : b.pos < a.pos
    · rw [if_pos hl, if_pos hl, hd]
    · rw [if_neg hl, if_neg hl]
  have hl1 : ∀ a b : Fin nx, (EArg.x0 b : EArg nx 1).pos < (EArg.x0 a : EArg nx 1).pos ↔ b < a := by
    intro a b
    simp only [EArg.pos, Fin.lt_def]
    omega
  have hl2 : ∀ a b : Fin nx, (EArg.xf b : EArg nx 1).pos < (EArg.xf a : EArg nx 1).pos ↔ b < a := by
    intro a b
    simp only [EArg.pos, Fin.lt_def]
    omega
  simp only [hd', hp]
  rw [earg_sum_eq]
  simp only [earg_sum_eq, bendE, devEnd, hl1, hl2, noTE, mul_zero, zero_mul, ite_self, Finset.sum_const_zero, zero_add, add_zero]
  unfold skew
  congr 1
  · rw [Finset.sum_comm]
    refine Finset.sum_congr rfl fun a _ => Finset.sum_congr rfl fun b _ => ?_
    split_ifs
    · ring
    · ring
  · rw [Finset.sum_comm]
    refine Finset.sum_congr rfl fun a _ => Finset.sum_congr rfl fun b _ => ?_
    split_ifs
    · ring
    · ring

/-- The brackets drop out of the quadratic form. -/
theorem second_along (h : IsLie LX mat hat) (h' : IsLie LU matU hatU) {f : GFn X U ℝ nf} (hf : IsDrG LX LU f) (t : ℝ) (j : Fin nf) (i : Fin N)
    (z : QVar N nx nu → ℝ) : second (fun δ => along LX LU f lin t δ j) 0 (dev z i) =
      ∑ a : Arg nx nu, ∑ b : Arg nx nu, (f.hess t (lin.x t) (lin.u t)).val a.pos ((1 + nx + nu) * j + b.pos) * dev z i a * dev z i b := by
  obtain ⟨hc, he⟩ := along_two (lin := lin) h h' hf t j
  set J : Arg nx nu → ℝ := fun a => (f.jac t (lin.x t) (lin.u t)).val j a.pos with hJ
  rw [second_eq hc]
  have e1 : ∀ a b, pd (pd (fun δ => along LX LU f lin t δ j) a) b 0 * dev z i a * dev z i b =
      (f.hess t (lin.x t) (lin.u t)).val a.pos ((1 + nx + nu) * j + b.pos) * dev z i a * dev z i b + bend LX LU J a b * dev z i a * dev z i b := by
    intro a b
    rw [he]
    cases a <;> cases b <;> simp only [noT, dev] <;> ring
  have e2 : ∑ a : Arg nx nu, ∑ b : Arg nx nu, bend LX LU J a b * dev z i a * dev z i b = 0 := by
    have e3 : ∑ a : Arg nx nu, ∑ b : Arg nx nu, bend LX LU J a b * dev z i a * dev z i b =
        -∑ a : Arg nx nu, ∑ b : Arg nx nu, bend LX LU J a b * dev z i a * dev z i b := by
      conv_lhs => rw [Finset.sum_comm]
      simp only [← Finset.sum_neg_distrib]
      refine Finset.sum_congr rfl fun a _ => Finset.sum_congr rfl fun b _ => ?_
      rw [bend_antisymm h h' J b a]
      ring
    linarith
  simp only [e1, Finset.sum_add_distrib, e2, add_zero]

theorem second_ends (h : IsLie LX mat hat) {f : GEFn X ℝ 1 nf} (hf : IsDrGE LX f) (tf : ℝ) (j : Fin nf)
    (z : QVar N nx nu → ℝ) : second (fun δ => ends LX f lin tf δ j) 0 (devEnd z) =
      ∑ a : EArg nx 1, ∑ b : EArg nx 1, (f.hess tf (lin.x 0) (lin.x tf) fun _ => 1).val a.pos ((1 + 2 * nx + 1) * j + b.pos) * devEnd z a * devEnd z b := by
  obtain ⟨hc, he⟩ := ends_two (lin := lin) h hf tf j
  set J : EArg nx 1 → ℝ := fun a => (f.jac tf (lin.x 0) (lin.x tf) fun _ => 1).val j a.pos with hJ
  rw [second_eq hc]
  have e1 : ∀ a b, pd (pd (fun δ => ends LX f lin tf δ j) a) b 0 * devEnd z a * devEnd z b =
      (f.hess tf (lin.x 0) (lin.x tf) fun _ => 1).val a.pos ((1 + 2 * nx + 1) * j + b.pos) * devEnd z a * devEnd z b +
        bendE LX J a b * devEnd z a * devEnd z b := by
    intro a b
    rw [he]
    cases a <;> cases b <;> simp only [noTE, devEnd] <;> ring
  have e2 : ∑ a : EArg nx 1, ∑ b : EArg nx 1, bendE LX J a b * devEnd z a * devEnd z b = 0 := by
    have e3 : ∑ a : EArg nx 1, ∑ b : EArg nx 1, bendE LX J a b * devEnd z a * devEnd z b =
        -∑ a : EArg nx 1, ∑ b : EArg nx 1, bendE LX J a b * devEnd z a * devEnd z b := by
      conv_lhs => rw [Finset.sum_comm]
      simp only [← Finset.sum_neg_distrib]
      refine Finset.sum_congr rfl fun a _ => Finset.sum_congr rfl fun b _ => ?_
      rw [bendE_antisymm h J b a]
      ring
    linarith
  simp only [e1, Finset.sum_add_distrib, e2, add_zero]

theorem ends_linear {th : GEFn X ℝ 1 1} {b : ℝ} (hb : LinearInIntegralG th b) (tf : ℝ) : LinearInIntegral (fun δ => ends LX th lin tf δ 0) b := by
  intro e c
  have e1 : (fun k : Fin 1 => 1 + Function.update e (.q 0) c (.q k)) = fun _ => 1 + c := by
    funext k
    rw [Subsingleton.elim k 0, Function.update_self]
  have e2 : (fun k : Fin 1 => 1 + e (.q k)) = fun _ => 1 + e (.q 0) := by
    funext k
    rw [Subsingleton.elim k 0]
  change th.val tf _ _ (fun k : Fin 1 => 1 + Function.update e (.q 0) c (.q k)) 0 = th.val tf _ _ (fun k : Fin 1 => 1 + e (.q k)) 0 + _
  rw [e1, e2, hb _ _ _ (1 + e (.q 0)) (1 + c)]
  have e3 : ∀ k, Function.update e (EArg.q 0) c (.x0 k) = e (.x0 k) := fun k => Function.update_of_ne (by simp) _ _
  have e4 : ∀ k, Function.update e (EArg.q 0) c (.xf k) = e (.xf k) := fun k => Function.update_of_ne (by simp) _ _
  simp only [e3, e4]
  ring

/-- **C82 (partial).** Let the cost be linear in the integral, with weight `b`. Then the objective of the program is the second-order expansion of the
cost of the trajectory `x_lin ⊕ z`, `u_lin ⊕ z` at zero, without its constant, minus a quarter of the second derivative of the end cost (as for
vectors, C33), plus half the error `skewCost` that is due to reading only the upper triangle of second derivatives that are not symmetric. Missing for
the full claim: these last two terms, which the claim does not have; `ocp_qp_cost_lie_wrong` shows that it fails. -/
theorem ocp_qp_cost_lie_partial (h : IsLie LX mat hat) (h' : IsLie LU matU hatU) (idX : X) (idU : U) (env : Mesh.Env ℝ) (m : Mesh ℝ) (hm : m ≠ [])
    (hK : ∀ v ∈ m, 1 ≤ v.K) (comm : Bool) (ocp : GOCP X U ℝ nx 1 ncr nce) (ho : IsDrGOCP LX LU ocp) (tf : ℝ) (lin : GLin X U ℝ nx) (b : ℝ)
    (hb : LinearInIntegralG ocp.theta b) :
    ∃ qp, ocpToQpG nu idX idU env m LX comm ocp tf lin = some qp ∧ ∀ (z : QVar (nColloc m) nx nu → ℝ) x, IsPrimal z x →
      QPSpec.cost (toPbm qp (numV (nColloc m) nx nu) (numC (nColloc m) nx ncr nce)) x =
        fderiv ℝ (trajCostG LX LU env m ocp lin tf) 0 z + second (trajCostG LX LU env m ocp lin tf) 0 z / 2 -
          second (fun δ => ends LX ocp.theta lin tf δ 0) 0 (devEnd z) / 4 + skewCost LX LU env m ocp lin tf b z / 2 := by
  obtain ⟨qp, e, hB⟩ := ocpToQpG_built (nu := nu) idX idU env m hm hK LX comm ocp (IsDrGOCP.rows ho) tf lin
  refine ⟨qp, e, fun z x hx => ?_⟩
  have hN := nColloc_pos hm hK
  -- the records
  set JE : EArg nx 1 → ℝ := fun a => (ocp.theta.jac tf (lin.x 0) (lin.x tf) fun _ => 1).val 0 a.pos with hJE
  set HE : EArg nx 1 → EArg nx 1 → ℝ := fun a b => (ocp.theta.hess tf (lin.x 0) (lin.x tf) fun _ => 1).val a.pos b.pos with hHE
  set Jg : Fin (nColloc m) → Arg nx nu → ℝ := fun i a => (ocp.g.jac (tf * tauAt env m i) (lin.x (tf * tauAt env m i)) (lin.u (tf * tauAt env m i))).val 0 a.pos
    with hJg
  set Hg : Fin (nColloc m) → Arg nx nu → Arg nx nu → ℝ := fun i a b =>
    (ocp.g.hess (tf * tauAt env m i) (lin.x (tf * tauAt env m i)) (lin.u (tf * tauAt env m i))).val a.pos b.pos with hHg
  have hth := (ends_two (lin := lin) h ho.theta tf 0).1
  have hgc := fun t => (along_two (lin := lin) h h' ho.g t 0).1
  have hpb : (ocp.theta.jac tf (lin.x 0) (lin.x tf) fun _ => 1).val 0 (1 + 2 * nx) = b := by
    have e1 := pd_integral (contDiff_differentiable hth) (ends_linear (LX := LX) (lin := lin) hb tf) 0
    rw [(ends_hasPd (lin := lin) ho.theta tf 0).pd] at e1
    exact e1
  have hBq : ∀ v : QVar (nColloc m) nx nu, qp.q.val v.pos =
      b * (∑ i : Fin (nColloc m), wAt env m i * (tf * pullN i (Jg i) v)) + pullQ JE v := by
    intro v
    rw [← hpb]
    exact hB.q v
  have hBP : ∀ v w : QVar (nColloc m) nx nu, qp.P.val v.pos w.pos = if v.pos ≤ w.pos then
      b * (∑ i : Fin (nColloc m), wAt env m i * (tf * pullN i (fun a => pullN i (fun b => Hg i a b) w) v)) + 1 / 2 * pullQQ HE v w else 0 := by
    intro v w
    rw [← hpb]
    exact hB.P v w
  -- the derivatives of the cost of the trajectory
  obtain ⟨k1, k2⟩ := sum_derivs hth (fun i : Fin (nColloc m) => hgc (tf * tauAt env m i)) liftE (fun i => liftN i) b (fun i => wAt env m i * tf) z
  rw [trajCostG_eq env m ocp tf b hb, k1, k2]
  simp only [liftE_apply, liftN_apply]
  -- the objective
  have hq : (toPbm qp (numV (nColloc m) nx nu) (numC (nColloc m) nx ncr nce)).q ⬝ᵥ x =
      b * (∑ i : Fin (nColloc m), wAt env m i * tf * fderiv ℝ (fun δ => along LX LU ocp.g lin (tf * tauAt env m i) δ 0) 0 (dev z i)) +
        fderiv ℝ (fun δ => ends LX ocp.theta lin tf δ 0) 0 (devEnd z) := by
    have g1 : ∀ i : Fin (nColloc m), fderiv ℝ (fun δ => along LX LU ocp.g lin (tf * tauAt env m i) δ 0) 0 (dev z i) = ∑ v, pullN i (Jg i) v * z v := by
      intro i
      rw [fderiv_pd]
      simp only [(along_hasPd (lin := lin) ho.g (tf * tauAt env m i) 0).pd]
      rw [← sum_pullN, pullN_noT]
      rfl
    have g2 : fderiv ℝ (fun δ => ends LX ocp.theta lin tf δ 0) 0 (devEnd z) = ∑ v, pullQ JE v * z v := by
      rw [fderiv_pd]
      simp only [(ends_hasPd (lin := lin) ho.theta tf 0).pd]
      rw [← sum_pullQ, pullQ_noTE]
      rfl
    simp only [g1, g2]
    unfold dotProduct
    rw [sum_vars]
    have : ∀ v : QVar (nColloc m) nx nu, (toPbm qp (numV (nColloc m) nx nu) (numC (nColloc m) nx ncr nce)).q ⟨v.pos, v.pos_lt⟩ * x ⟨v.pos, v.pos_lt⟩ =
        (∑ i : Fin (nColloc m), b * (wAt env m i * tf * (pullN i (Jg i) v * z v))) + pullQ JE v * z v := by
      intro v
      rw [hx v v.pos_lt]
      change qp.q.val v.pos * _ = _
      rw [hBq, add_mul, Finset.mul_sum, Finset.sum_mul]
      congr 1
      exact Finset.sum_congr rfl fun i _ => by ring
    simp only [this, Finset.sum_add_distrib]
    congr 1
    rw [Finset.sum_comm, Finset.mul_sum]
    refine Finset.sum_congr rfl fun i _ => ?_
    rw [Finset.mul_sum, Finset.mul_sum]
  set M : QVar (nColloc m) nx nu → QVar (nColloc m) nx nu → ℝ := fun v w =>
    b * (∑ i : Fin (nColloc m), wAt env m i * (tf * pullN i (fun a => pullN i (fun b => Hg i a b) w) v)) + 1 / 2 * pullQQ HE v w with hM
  have lin1 : ∀ (φ : Fin (nColloc m) → Arg nx nu → Arg nx nu → ℝ) (ψ : EArg nx 1 → EArg nx 1 → ℝ),
      ∑ v : QVar (nColloc m) nx nu, ∑ w : QVar (nColloc m) nx nu,
        (b * (∑ i : Fin (nColloc m), wAt env m i * (tf * pullN i (fun a => pullN i (fun b => φ i a b) w) v)) + 1 / 2 * pullQQ ψ v w) * z v * z w =
      b * (∑ i : Fin (nColloc m), wAt env m i * (tf * ∑ a, ∑ b, φ i a b * dev z i a * dev z i b)) + 1 / 2 * ∑ a, ∑ b, ψ a b * devEnd z a * devEnd z b := by
    intro φ ψ
    simp only [← sum_pullNN, ← sum_pullQQ]
    simp only [add_mul, Finset.sum_add_distrib]
    congr 1
    · have e1 : ∀ v w : QVar (nColloc m) nx nu,
          b * (∑ i : Fin (nColloc m), wAt env m i * (tf * pullN i (fun a => pullN i (fun b => φ i a b) w) v)) * z v * z w =
          ∑ i : Fin (nColloc m), b * (wAt env m i * (tf * (pullN i (fun a => pullN i (fun b => φ i a b) w) v * z v * z w))) := by
        intro v w
        rw [Finset.mul_sum, Finset.sum_mul, Finset.sum_mul]
        exact Finset.sum_congr rfl fun i _ => by ring
      simp only [e1]
      have e2 : ∀ v : QVar (nColloc m) nx nu, ∑ w : QVar (nColloc m) nx nu, ∑ i : Fin (nColloc m),
          b * (wAt env m i * (tf * (pullN i (fun a => pullN i (fun b => φ i a b) w) v * z v * z w))) =
          ∑ i : Fin (nColloc m), b * (wAt env m i * (tf * ∑ w : QVar (nColloc m) nx nu, pullN i (fun a => pullN i (fun b => φ i a b) w) v * z v * z w)) := by
        intro v
        rw [Finset.sum_comm]
        simp only [Finset.mul_sum]
      simp only [e2]
      rw [Finset.sum_comm]
      simp only [Finset.mul_sum]
    · simp only [Finset.mul_sum, mul_assoc]
  have hPx : x ⬝ᵥ ((toPbm qp (numV (nColloc m) nx nu) (numC (nColloc m) nx ncr nce)).P).mulVec x =
      b * (∑ i : Fin (nColloc m), wAt env m i * tf * second (fun δ => along LX LU ocp.g lin (tf * tauAt env m i) δ 0) 0 (dev z i)) +
        1 / 2 * second (fun δ => ends LX ocp.theta lin tf δ 0) 0 (devEnd z) + skewCost LX LU env m ocp lin tf b z := by
    have g0 : x ⬝ᵥ ((toPbm qp (numV (nColloc m) nx nu) (numC (nColloc m) nx ncr nce)).P).mulVec x =
        ∑ v, ∑ w, (if v.pos ≤ w.pos then M v w else M w v) * z v * z w := by
      unfold dotProduct Matrix.mulVec dotProduct
      rw [sum_vars]
      simp only [sum_vars (N := nColloc m) (nx := nx) (nu := nu), hx _ (QVar.pos_lt _)]
      refine Finset.sum_congr rfl fun v _ => ?_
      rw [Finset.mul_sum]
      refine Finset.sum_congr rfl fun w _ => ?_
      change z v * ((if v.pos ≤ w.pos then qp.P.val v.pos w.pos else qp.P.val w.pos v.pos) * z w) = _
      by_cases hl : v.pos ≤ w.pos
      · rw [if_pos hl, if_pos hl, hBP, if_pos hl]; ring
      · rw [if_neg hl, if_neg hl, hBP, if_pos (le_of_not_ge hl)]; ring
    rw [g0, upper_form]
    congr 1
    · rw [lin1, second_ends h ho.theta]
      simp only [second_along h h' ho.g, hHE, hHg, mul_assoc]
      simp
    · have g1 : ∀ v w : QVar (nColloc m) nx nu, (if w.pos < v.pos then M w v - M v w else 0) =
          b * (∑ i : Fin (nColloc m), wAt env m i * (tf * pullN i (fun a => pullN i (fun b => if b.pos < a.pos then Hg i b a - Hg i a b else 0) w) v)) +
            1 / 2 * pullQQ (fun a b => if b.pos < a.pos then HE b a - HE a b else 0) v w := by
        intro v w
        rw [← pullQQ_lt hN (fun a b => HE b a - HE a b)]
        simp only [← pullNN_lt, ← pullNN_sub, ← pullQQ_sub]
        by_cases hl : w.pos < v.pos
        · simp only [if_pos hl]
          rw [hM]
          simp only
          rw [pullQQ_swap HE v w]
          have : ∀ i : Fin (nColloc m), pullN i (fun a => pullN i (fun b => Hg i a b) v) w = pullN i (fun a => pullN i (fun b => Hg i b a) w) v :=
            fun i => pullNN_swap i (Hg i) v w
          simp only [this, mul_sub, Finset.sum_sub_distrib]
          ring
        · simp [if_neg hl]
      simp only [g1]
      rw [lin1]
      have s1 := skew_sumE (lin := lin) h ho.theta tf 0 z
      have s2 := fun i : Fin (nColloc m) => skew_sum (lin := lin) h h' ho.g (tf * tauAt env m i) 0 i z
      simp only [Fin.val_zero, mul_zero, zero_add] at s1 s2
      unfold skewCost
      rw [← s1]
      simp only [← s2]
      rfl
  unfold QPSpec.cost
  rw [hPx, hq]
  ring

/-- If the group is commutative, or the gradients of the costs are zero, the triangle loses nothing. -/
theorem skew_zero (L : LieOps X ℝ nx) (J d : Fin nx → ℝ) (h : J = 0 ∨ ∀ a, L.ad a = 0) : skew L J d = 0 := by
  unfold skew
  rcases h with rfl | h
  · simp
  · simp [h]

/-- **C82 in the cases where nothing is lost.** If the end cost has no second derivatives, and each group commutes or the gradients of the costs
for it are zero along the linearisation, then the objective is the second-order expansion of the cost, without the constant. -/
theorem ocp_qp_cost_lie_exact (h : IsLie LX mat hat) (h' : IsLie LU matU hatU) (idX : X) (idU : U) (env : Mesh.Env ℝ) (m : Mesh ℝ) (hm : m ≠ [])
    (hK : ∀ v ∈ m, 1 ≤ v.K) (comm : Bool) (ocp : GOCP X U ℝ nx 1 ncr nce) (ho : IsDrGOCP LX LU ocp) (tf : ℝ) (lin : GLin X U ℝ nx) (b : ℝ)
    (hb : LinearInIntegralG ocp.theta b) (hth : ∀ d, second (fun δ => ends LX ocp.theta lin tf δ 0) 0 d = 0)
    (hx : (∀ a, LX.ad a = 0) ∨ ((∀ t k, pd (fun δ => along LX LU ocp.g lin t δ 0) (.x k) 0 = 0) ∧
      (∀ k, pd (fun δ => ends LX ocp.theta lin tf δ 0) (.x0 k) 0 = 0) ∧ ∀ k, pd (fun δ => ends LX ocp.theta lin tf δ 0) (.xf k) 0 = 0))
    (hu : (∀ a, LU.ad a = 0) ∨ ∀ t k, pd (fun δ => along LX LU ocp.g lin t δ 0) (.u k) 0 = 0) :
    ∃ qp, ocpToQpG nu idX idU env m LX comm ocp tf lin = some qp ∧ ∀ (z : QVar (nColloc m) nx nu → ℝ) x, IsPrimal z x →
      QPSpec.cost (toPbm qp (numV (nColloc m) nx nu) (numC (nColloc m) nx ncr nce)) x =
        fderiv ℝ (trajCostG LX LU env m ocp lin tf) 0 z + second (trajCostG LX LU env m ocp lin tf) 0 z / 2 := by
  obtain ⟨qp, e, hc⟩ := ocp_qp_cost_lie_partial h h' idX idU env m hm hK comm ocp ho tf lin b hb
  refine ⟨qp, e, fun z x hz => ?_⟩
  have sx : ∀ t d, skew LX (fun k => pd (fun δ => along LX LU ocp.g lin t δ 0) (.x k) 0) d = 0 := fun t d =>
    skew_zero _ _ _ (hx.symm.imp (fun k => funext fun j => k.1 t j) id)
  have su : ∀ t d, skew LU (fun k => pd (fun δ => along LX LU ocp.g lin t δ 0) (.u k) 0) d = 0 := fun t d =>
    skew_zero _ _ _ (hu.symm.imp (fun k => funext fun j => k t j) id)
  have s0 : ∀ d, skew LX (fun k => pd (fun δ => ends LX ocp.theta lin tf δ 0) (.x0 k) 0) d = 0 := fun d =>
    skew_zero _ _ _ (hx.symm.imp (fun k => funext fun j => k.2.1 j) id)
  have sf : ∀ d, skew LX (fun k => pd (fun δ => ends LX ocp.theta lin tf δ 0) (.xf k) 0) d = 0 := fun d =>
    skew_zero _ _ _ (hx.symm.imp (fun k => funext fun j => k.2.2 j) id)
  rw [hc z x hz, hth]
  simp only [skewCost, sx, su, s0, sf]
  simp

end Verif.OQP
