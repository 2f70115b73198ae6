import Verif.Spec.SE2QP
import Verif.Props.SE2Ocp
import Verif.Props.OCPQPLieCost
import Verif.Props.MPCSolver

/-! # The numbers of the quadratic program of the problem on SE(2) -/

namespace Verif.SE2

open Verif.Mesh Verif.Sparse Verif.MeshFn Verif.NLP Verif.Lie Verif.Flatten Verif.OQP Verif.QP Verif.QPSpec Verif.DI

open scoped Matrix

variable {X 𝔸 : Type*} [NormedRing 𝔸] [NormedAlgebra ℝ 𝔸] [FiniteDimensional ℝ 𝔸] [CompleteSpace 𝔸] {P : PoseOps X ℝ} {mat : X → 𝔸}
  {hat : (Fin 5 → ℝ) →ₗ[ℝ] 𝔸}

/-- In a direction that commutes with all others the exponential map is regular, with derivative one. -/
theorem drExp_central {n : ℕ} {L : LieOps X ℝ n} {hat : (Fin n → ℝ) →ₗ[ℝ] 𝔸} (h : IsLie L mat hat) {a : Fin n → ℝ} (ha : ∀ b, L.ad a *ᵥ b = 0) : L.drExp a = 1 := by
  letI : NormedAlgebra ℚ 𝔸 := NormedAlgebra.restrictScalars ℚ ℝ 𝔸
  have h3 : ∀ b, L.drExp a *ᵥ b = b := by
    intro b
    obtain ⟨D, hD, hDb⟩ := h.drExp a
    have hc : Commute (hat a) (hat b) := by
      have := h.ad a b
      rw [ha, map_zero] at this
      exact (sub_eq_zero.1 this.symm)
    have hl : HasDerivAt (fun s : ℝ => a + s • b) b 0 := by
      simpa using ((hasDerivAt_id (0 : ℝ)).smul_const b).const_add a
    have h1 : HasDerivAt (fun s : ℝ => NormedSpace.exp (hat (a + s • b))) (D b) 0 := by
      refine HasFDerivAt.comp_hasDerivAt (0 : ℝ) (f := fun s : ℝ => a + s • b) (l := fun a => NormedSpace.exp (hat a)) ?_ hl
      simpa using hD
    have e : (fun s : ℝ => NormedSpace.exp (hat (a + s • b))) = fun s => NormedSpace.exp (hat a) * NormedSpace.exp (s • hat b) := by
      funext s
      rw [map_add, map_smul, NormedSpace.exp_add_of_commute (hc.smul_right s)]
    rw [e] at h1
    have h2 : HasDerivAt (fun s : ℝ => NormedSpace.exp (hat a) * NormedSpace.exp (s • hat b)) (NormedSpace.exp (hat a) * hat b) 0 := by
      have := (hasDerivAt_exp_smul_const (𝕂 := ℝ) (hat b) 0).const_mul (NormedSpace.exp (hat a))
      simpa using this
    have h4 := h1.unique h2
    rw [hDb] at h4
    apply h.hat_inj
    have h5 := congrArg (fun x => NormedSpace.exp (-hat a) * x) h4
    simpa only [← mul_assoc, exp_neg_mul, one_mul] using h5
  ext i j
  have := congrFun (h3 (Pi.single j 1)) i
  rw [Matrix.mulVec_single_one] at this
  rw [Matrix.one_apply]
  simpa [Pi.single_apply] using this

theorem drExpinv_central {n : ℕ} {L : LieOps X ℝ n} {hat : (Fin n → ℝ) →ₗ[ℝ] 𝔸} (h : IsLie L mat hat) {a : Fin n → ℝ} (ha : ∀ b, L.ad a *ᵥ b = 0) : L.drExpinv a = 1 := by
  have h1 := drExp_central h ha
  rw [h.drExpinv a (by rw [h1]; simp), h1, inv_one]

theorem qpTime_eq : qpTime P = 5 := rfl

theorem rows_ok : HasRowsG (ocpSe2 P) :=
  ⟨fun _ _ _ => rfl, fun _ _ _ => (integral_jac P _ _ _).1, fun _ _ _ => rfl, fun _ _ _ _ => (ce_jac P _ _ _ _).1⟩

/-- The velocity of the linearisation is the derivative of the desired state. -/
theorem qpLin_vel (h : IsPose P mat hat) (t : ℝ) : HasVel mat hat (qpLin P).x ((qpLin P).dx t) Set.univ t := by
  change HasDerivWithinAt (fun s => mat (xdes P s)) (mat (xdes P t) * hat omega) Set.univ t
  rw [hasDerivWithinAt_univ]
  have h1 := (hasDerivAt_exp_smul_const (𝕂 := ℝ) (hat omega) (t - t)).const_mul (mat (xdes P t))
  have h2 := HasDerivAt.scomp (h := fun s : ℝ => s - t) t h1 ((hasDerivAt_id t).sub_const t)
  have e : (fun s => mat (xdes P s)) = (fun u : ℝ => mat (xdes P t) * NormedSpace.exp (u • hat omega)) ∘ fun s => s - t := by
    funext s
    have := xdes_mat h t (s - t)
    rw [add_sub_cancel] at this
    exact this
  rw [e]
  simpa using h2

theorem f_at (h : IsPose P mat hat) (t : ℝ) : (ocpSe2 P).f.val t (xdes P t) ![0, 0] = omega := by
  change ![P.vel (xdes P t) 0, 0, P.vel (xdes P t) 1, (![0, 0] : Fin 2 → ℝ) 0, (![0, 0] : Fin 2 → ℝ) 1] = _
  unfold xdes
  rw [h.make_vel]
  funext k
  fin_cases k <;> simp [vdes, omega]

theorem f_jac (t : ℝ) (x : X) (u : Fin 2 → ℝ) (j : Fin 5) (a : Arg 5 2) : ((dyn P).jac t x u).val j a.pos =
    if j = 0 ∧ a = .x 3 ∨ j = 2 ∧ a = .x 4 ∨ j = 3 ∧ a = .u 0 ∨ j = 4 ∧ a = .u 1 then 1 else 0 := by
  cases a with
  | t => fin_cases j <;> simp [dyn, built, Sp.update, Sp.empty, Sp.val, Arg.pos, List.foldlM]
  | x k => fin_cases j <;> fin_cases k <;> simp [dyn, built, Sp.update, Sp.empty, Sp.val, Arg.pos, List.foldlM]
  | u k => fin_cases j <;> fin_cases k <;> simp [dyn, built, Sp.update, Sp.empty, Sp.val, Arg.pos, List.foldlM]

theorem cr_jac (t : ℝ) (x : X) (u : Fin 2 → ℝ) (j : Fin 2) (a : Arg 5 2) : ((cr (X := X)).jac t x u).val j a.pos = if a = .u j then 1 else 0 := by
  cases a with
  | t => fin_cases j <;> simp [cr, built, Sp.update, Sp.empty, Sp.val, Arg.pos, List.foldlM]
  | x k => fin_cases j <;> fin_cases k <;> simp [cr, built, Sp.update, Sp.empty, Sp.val, Arg.pos, List.foldlM]
  | u k => fin_cases j <;> fin_cases k <;> simp [cr, built, Sp.update, Sp.empty, Sp.val, Arg.pos, List.foldlM]

theorem theta_jac (t : ℝ) (x y : X) (q : Fin 1 → ℝ) : ((theta (X := X)).jac t x y q).val 0 (1 + 2 * 5) = 1 ∧
    (∀ k : Fin 5, ((theta (X := X)).jac t x y q).val 0 (EArg.pos (.x0 k : EArg 5 1)) = 0) ∧
    ∀ k : Fin 5, ((theta (X := X)).jac t x y q).val 0 (EArg.pos (.xf k : EArg 5 1)) = 0 := by
  refine ⟨by simp [theta, built, Sp.update, Sp.empty, Sp.val, List.foldlM], fun k => ?_, fun k => ?_⟩
  · fin_cases k <;> simp [theta, built, Sp.update, Sp.empty, Sp.val, EArg.pos, List.foldlM]
  · fin_cases k <;> simp [theta, built, Sp.update, Sp.empty, Sp.val, EArg.pos, List.foldlM]

/-- One if the variable belongs to node `i`. -/
noncomputable def atNode {N : ℕ} (v : QVar N 5 2) (i : Fin N) : ℝ :=
  match v with
  | .x j _ => if j = i.castSucc then 1 else 0
  | .u j _ => if j = i then 1 else 0

/-- The numbers of the program, on a plane. -/
structure Numbers (env : Mesh.Env ℝ) (m : Mesh ℝ) (qp : QPD ℝ) : Prop where
  dyn : ∀ (z : QVar (nColloc m) 5 2 → ℝ) (i : Fin (nColloc m)) (k : Fin 5), ∑ v : QVar (nColloc m) 5 2, qp.A.val (5 * i + k) v.pos * z v =
    5 * errRate (stateAt z i.castSucc) (inputAt z i) k - slope env (spans 1 m) (coordQ z k) i
  dynB : ∀ (i : Fin (nColloc m)) (k : Fin 5), qp.l.val (5 * i + k) = .fin 0 ∧ qp.u.val (5 * i + k) = .fin 0
  cr : ∀ (z : QVar (nColloc m) 5 2 → ℝ) (i : Fin (nColloc m)) (k : Fin 2), ∑ v : QVar (nColloc m) 5 2, qp.A.val (5 * nColloc m + (2 * i + k)) v.pos * z v = z (.u i k)
  crB : ∀ (i : Fin (nColloc m)) (k : Fin 2), qp.l.val (5 * nColloc m + (2 * i + k)) = .fin (-1) ∧ qp.u.val (5 * nColloc m + (2 * i + k)) = .fin 1
  time : ∀ v : QVar (nColloc m) 5 2, qp.A.val (5 * nColloc m + 2 * nColloc m + 0) v.pos = 0
  timeB : qp.l.val (5 * nColloc m + 2 * nColloc m + 0) = .fin 0 ∧ qp.u.val (5 * nColloc m + 2 * nColloc m + 0) = .fin 0
  ce : ∀ (z : QVar (nColloc m) 5 2 → ℝ) (k : Fin 5), ∑ v : QVar (nColloc m) 5 2, qp.A.val (5 * nColloc m + 2 * nColloc m + (1 + k)) v.pos * z v = z (.x 0 k)
  ceB : ∀ k : Fin 5, qp.l.val (5 * nColloc m + 2 * nColloc m + (1 + k)) = .fin ((![0, 0, 0, 0, -(1 / 2)] : Fin 5 → ℝ) k) ∧
    qp.u.val (5 * nColloc m + 2 * nColloc m + (1 + k)) = .fin ((![0, 0, 0, 0, -(1 / 2)] : Fin 5 → ℝ) k)
  P : ∀ v w : QVar (nColloc m) 5 2, qp.P.val v.pos w.pos = if v = w then
    5 * ∑ i : Fin (nColloc m), wAt env m i * atNode v i else 0
  q : ∀ v : QVar (nColloc m) 5 2, qp.q.val v.pos = 0

theorem numbers (h : IsPose P mat hat) (hp : IsPlane P) (idX : X) (env : Mesh.Env ℝ) (m : Mesh ℝ) (hm : m ≠ []) (hK : ∀ v ∈ m, 1 ≤ v.K) :
    ∃ qp, qpOf idX env P m = some qp ∧ HasSize qp (numV (nColloc m) 5 2) (numC (nColloc m) 5 2 6) ∧ Numbers env m qp := by
  obtain ⟨qp, e, hB⟩ := ocpToQpG_built (nu := 2) idX ![0, 0] env m hm hK P.toLieOps false (ocpSe2 P) rows_ok (qpTime P) (qpLin P)
  refine ⟨qp, e, hB.size, ?_⟩
  rw [qpTime_eq] at hB
  have hfv : ∀ t : ℝ, (localOCP 2 (ocpSe2 P) (qpLin P).x (qpLin P).u 5).f.val (linPt (zeroLin 2 (qpLin P).dx) t) = omega := fun t => f_at h t
  have hdx : ∀ t : ℝ, (zeroLin (F := ℝ) 2 (qpLin P).dx).dx t = omega := fun t => rfl
  have had : ∀ (e : Fin 5 → ℝ) (k : Fin 5), ∑ l, P.ad (omega + omega) k l * e l = (![-(e 1), e 0 - 2 * e 2, 0, 0, 0] : Fin 5 → ℝ) k := by
    intro e k
    have := congrFun (hp.ad (omega + omega) e) k
    refine (show (P.ad (omega + omega) *ᵥ e) k = _ from this).trans ?_
    fin_cases k <;> simp [omega] <;> ring
  have hr0 : ∀ t, P.rminus (xdes P t) (xdes P t) = 0 := fun t => hp.self _
  have hsq : P.drSq 0 = 0 := by rw [h.drSq]; simp
  have hsq2 : P.d2rSq 0 = 1 := by rw [h.d2rSq, h.lie.drExpinv_zero]; simp
  have hlog : P.log (xdes P 0) = ![0, 0, 0, 1, 1 / 2] := by
    unfold xdes
    rw [zero_smul, hp.log]
    funext k
    fin_cases k <;> simp [vdes]
  have hcen : P.drExpinv (P.log (xdes P 0)) = 1 := by
    refine drExpinv_central h.lie fun b => ?_
    rw [hlog, hp.ad]
    funext k
    fin_cases k <;> simp
  have hcj := ce_jac P 5 (xdes P 0) (xdes P 5) (fun _ => 1)
  have hcev : (localOCP 2 (ocpSe2 P) (qpLin P).x (qpLin P).u 5).ce.val (linEnd (zeroLin 2 (qpLin P).dx) 5) = Fin.cons 5 ![0, 0, 0, 1, 1 / 2] := by
    change (Fin.cons (5 : ℝ) (P.log (xdes P 0)) : Fin 6 → ℝ) = _
    rw [hlog]
  refine ⟨?_, ?_, ?_, ?_, ?_, ?_, ?_, ?_, ?_, ?_⟩
  · intro z i k
    simp only [hB.dyn, sub_mul, add_mul, Finset.sum_sub_distrib, Finset.sum_add_distrib, mul_assoc, ← Finset.mul_sum, slope_unit, sum_pullN]
    congr 1
    rw [hfv, hdx, arg_sum_eq, arg_sum_eq]
    have e1 : ∀ a : Arg 5 2, ((localOCP 2 (ocpSe2 P) (qpLin P).x (qpLin P).u 5).f.jac (linPt (zeroLin 2 (qpLin P).dx) (5 * tauAt env m i))).val k a.pos =
        if k = 0 ∧ a = .x 3 ∨ k = 2 ∧ a = .x 4 ∨ k = 3 ∧ a = .u 0 ∨ k = 4 ∧ a = .u 1 then 1 else 0 := fun a =>
      f_jac (P := P) (5 * tauAt env m i) (xdes P (5 * tauAt env m i)) ![0, 0] k a
    simp only [e1]
    have e2 : ∑ l, adRow (nu := 2) (localAd P.toLieOps false) (omega + omega) k (.x l) * dev z i (.x l) = (![-(stateAt z i.castSucc 1), stateAt z i.castSucc 0 - 2 * stateAt z i.castSucc 2, 0, 0, 0] : Fin 5 → ℝ) k := by
      rw [← had (stateAt z i.castSucc) k]
      refine Finset.sum_congr rfl fun l _ => ?_
      change (ofMat (P.ad (omega + omega))).val k l * _ = _
      rw [ofMat_val]
      rfl
    rw [e2]
    fin_cases k <;> simp [adRow, dev, errRate, stateAt, inputAt, Fin.sum_univ_five, Fin.sum_univ_two] <;> ring
  · intro i k
    rw [hB.dynl, hB.dynu, hfv, hdx]
    simp
  · intro z i k
    simp only [hB.cr, sum_pullN]
    have e1 : ∀ a : Arg 5 2, ((localOCP 2 (ocpSe2 P) (qpLin P).x (qpLin P).u 5).cr.jac (linPt (zeroLin 2 (qpLin P).dx) (5 * tauAt env m i))).val k a.pos =
        if a = .u k then 1 else 0 := fun a =>
      cr_jac (X := X) (5 * tauAt env m i) (xdes P (5 * tauAt env m i)) ![0, 0] k a
    simp only [e1, ite_mul, one_mul, zero_mul, Finset.sum_ite_eq', Finset.mem_univ, if_true]
    rfl
  · intro i k
    have e1 : (localOCP 2 (ocpSe2 P) (qpLin P).x (qpLin P).u 5).cr.val (linPt (zeroLin 2 (qpLin P).dx) (5 * tauAt env m i)) k = 0 := by
      change (![0, 0] : Fin 2 → ℝ) k = 0
      fin_cases k <;> rfl
    rw [hB.crl, hB.cru, e1]
    change extSub (.fin (-1)) 0 = _ ∧ extSub (.fin 1) 0 = _
    simp [extSub]
  · intro v
    have := hB.ce 0 v
    rw [show ((0 : Fin 6) : ℕ) = 0 from rfl] at this
    rw [this]
    have e1 : ∀ a : EArg 5 1, ((localOCP 2 (ocpSe2 P) (qpLin P).x (qpLin P).u 5).ce.jac (linEnd (zeroLin 2 (qpLin P).dx) 5)).val 0 a.pos =
        if a.pos = 0 then 1 else 0 := fun a => hcj.2.2.1 a.pos
    simp only [e1]
    cases v <;> simp [pullQ, EArg.pos]
  · have h1 := hB.cel 0
    have h2 := hB.ceu 0
    rw [show ((0 : Fin 6) : ℕ) = 0 from rfl, hcev] at h1 h2
    rw [h1, h2]
    change extSub (.fin 5) 5 = _ ∧ extSub (.fin 5) 5 = _
    simp [extSub]
  · intro z k
    have e0 : ∀ v : QVar (nColloc m) 5 2, qp.A.val (5 * nColloc m + 2 * nColloc m + (1 + k)) v.pos = pullQ (fun a => ((ce P).jac 5 (xdes P 0) (xdes P 5) (fun _ => 1)).val (1 + k) a.pos) v := by
      intro v
      have := hB.ce k.succ v
      rw [Fin.val_succ, add_comm (k : ℕ) 1] at this
      exact this
    simp only [e0]
    have := sum_pullQ (fun a : EArg 5 1 => ((ce P).jac 5 (xdes P 0) (xdes P 5) (fun _ => 1)).val (1 + k) a.pos) z
    rw [this, earg_sum_eq]
    have e1 : ∀ l : Fin 5, ((ce P).jac 5 (xdes P 0) (xdes P 5) (fun _ => 1)).val (1 + k) (EArg.pos (.x0 l : EArg 5 1)) = if k = l then 1 else 0 := by
      intro l
      refine (hcj.2.2.2.2.1 k l).trans ?_
      rw [hcen, Matrix.one_apply]
    have e2 : ∀ l : Fin 5, ((ce P).jac 5 (xdes P 0) (xdes P 5) (fun _ => 1)).val (1 + k) (EArg.pos (.xf l : EArg 5 1)) = 0 := fun l =>
      hcj.2.2.2.2.2 k _ (by change 6 ≤ 1 + 5 + (l : ℕ); omega)
    simp only [e1, e2, devEnd, mul_zero, zero_mul, Finset.sum_const_zero, add_zero, zero_add, ite_mul, one_mul, Finset.sum_ite_eq, Finset.mem_univ, if_true]
  · intro k
    have h1 := hB.cel k.succ
    have h2 := hB.ceu k.succ
    rw [Fin.val_succ, add_comm (k : ℕ) 1, hcev, Fin.cons_succ] at h1 h2
    rw [h1, h2]
    fin_cases k <;> simp [localOCP, ocpSe2, extSub] <;> norm_num
  · intro v w
    rw [hB.P]
    have t1 : ((localOCP 2 (ocpSe2 P) (qpLin P).x (qpLin P).u 5).theta.jac (linEnd (zeroLin 2 (qpLin P).dx) 5)).val 0 (1 + 2 * 5) = 1 :=
      (theta_jac (X := X) 5 (xdes P 0) (xdes P 5) fun _ => 1).1
    have t2 : ∀ a b : ℕ, ((localOCP 2 (ocpSe2 P) (qpLin P).x (qpLin P).u 5).theta.hess (linEnd (zeroLin 2 (qpLin P).dx) 5)).val a b = 0 := fun a b => built_nil _ _ _ _
    have t3 : ∀ (i : Fin (nColloc m)) (a b : Arg 5 2), a ≠ .t → b ≠ .t → ((localOCP 2 (ocpSe2 P) (qpLin P).x (qpLin P).u 5).g.hess (linPt (zeroLin 2 (qpLin P).dx) (5 * tauAt env m i))).val a.pos b.pos =
        if a = b then 1 else 0 := by
      intro i a b ha hb
      obtain ⟨-, -, -, h1, h2, h3⟩ := integral_hess P (5 * tauAt env m i) (xdes P (5 * tauAt env m i)) ![0, 0]
      change ((integral P).hess (5 * tauAt env m i) (xdes P (5 * tauAt env m i)) ![0, 0]).val a.pos b.pos = _
      cases a with
      | t => exact absurd rfl ha
      | x c =>
        cases b with
        | t => exact absurd rfl hb
        | x d =>
          refine (h1 c d).trans ?_
          rw [hr0, hsq2, Matrix.one_apply]
          simp
        | u d =>
          refine (h2 c d).1.trans ?_
          simp
      | u c =>
        cases b with
        | t => exact absurd rfl hb
        | x d =>
          refine (h2 d c).2.trans ?_
          simp
        | u d =>
          refine (h3 c d).trans ?_
          simp
    rw [t1]
    simp only [t2]
    have t4 : pullQQ (fun (_ _ : EArg 5 1) => (0 : ℝ)) v w = 0 := by
      unfold pullQQ
      cases v <;> cases w <;> simp [pullQ]
    rw [t4, mul_zero, add_zero, one_mul]
    have t5 : ∀ i : Fin (nColloc m), pullN i (fun a => pullN i (fun b => ((localOCP 2 (ocpSe2 P) (qpLin P).x (qpLin P).u 5).g.hess
        (linPt (zeroLin 2 (qpLin P).dx) (5 * tauAt env m i))).val a.pos b.pos) w) v =
        if v = w then atNode v i else 0 := by
      intro i
      cases v with
      | x j k =>
        cases w with
        | x j' k' =>
          simp only [pullN, atNode]
          rw [t3 i _ _ (by simp) (by simp)]
          by_cases h1 : j = i.castSucc <;> by_cases h2 : j' = i.castSucc <;> by_cases h3 : k = k' <;> simp [h1, h2, h3]
          · exact fun hh => absurd hh.symm h2
        | u j' k' =>
          simp only [pullN, atNode]
          rw [t3 i _ _ (by simp) (by simp)]
          simp
      | u j k =>
        cases w with
        | x j' k' =>
          simp only [pullN, atNode]
          rw [t3 i _ _ (by simp) (by simp)]
          simp
        | u j' k' =>
          simp only [pullN, atNode]
          rw [t3 i _ _ (by simp) (by simp)]
          by_cases h1 : j = i <;> by_cases h2 : j' = i <;> by_cases h3 : k = k' <;> simp [h1, h2, h3]
          · exact fun hh => absurd hh.symm h2
    simp only [t5]
    by_cases hvw : v = w
    · subst hvw
      simp only [le_refl, if_true]
      rw [Finset.mul_sum]
      exact Finset.sum_congr rfl fun i _ => by ring
    · simp [hvw]
  · intro v
    rw [hB.q]
    have t1 : ∀ (i : Fin (nColloc m)) (a : Arg 5 2), a ≠ .t → ((localOCP 2 (ocpSe2 P) (qpLin P).x (qpLin P).u 5).g.jac (linPt (zeroLin 2 (qpLin P).dx) (5 * tauAt env m i))).val 0 a.pos = 0 := by
      intro i a ha
      obtain ⟨-, -, -, h1, h2⟩ := integral_jac P (5 * tauAt env m i) (xdes P (5 * tauAt env m i)) ![0, 0]
      change ((integral P).jac (5 * tauAt env m i) (xdes P (5 * tauAt env m i)) ![0, 0]).val 0 a.pos = 0
      cases a with
      | t => exact absurd rfl ha
      | x c =>
        refine (h1 c).trans ?_
        rw [hr0, hsq]
        rfl
      | u c =>
        refine (h2 c).trans ?_
        fin_cases c <;> rfl
    have t2 : ∀ i : Fin (nColloc m), pullN i (fun a => ((localOCP 2 (ocpSe2 P) (qpLin P).x (qpLin P).u 5).g.jac (linPt (zeroLin 2 (qpLin P).dx) (5 * tauAt env m i))).val 0 a.pos) v = 0 := by
      intro i
      cases v with
      | x j k => simp only [pullN]; rw [t1 i _ (by simp)]; simp
      | u j k => simp only [pullN]; rw [t1 i _ (by simp)]; simp
    have t3 : pullQ (fun a => ((localOCP 2 (ocpSe2 P) (qpLin P).x (qpLin P).u 5).theta.jac (linEnd (zeroLin 2 (qpLin P).dx) 5)).val 0 a.pos) v = 0 := by
      obtain ⟨-, h1, h2⟩ := theta_jac (X := X) 5 (xdes P 0) (xdes P 5) (fun _ => 1)
      have h1' : ∀ k : Fin 5, ((localOCP 2 (ocpSe2 P) (qpLin P).x (qpLin P).u 5).theta.jac (linEnd (zeroLin 2 (qpLin P).dx) 5)).val 0 (EArg.pos (.x0 k : EArg 5 1)) = 0 := h1
      have h2' : ∀ k : Fin 5, ((localOCP 2 (ocpSe2 P) (qpLin P).x (qpLin P).u 5).theta.jac (linEnd (zeroLin 2 (qpLin P).dx) 5)).val 0 (EArg.pos (.xf k : EArg 5 1)) = 0 := h2
      cases v with
      | x j k => simp only [pullQ, h1', h2']; simp
      | u j k => rfl
    rw [t3]
    simp only [t2]
    simp

end Verif.SE2
