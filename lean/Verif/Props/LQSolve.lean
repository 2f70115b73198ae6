import Verif.Props.LQ
import Verif.Props.MPCSolver
import Verif.Props.QPAlways

/-! # Solving linear-quadratic problems (C102) -/

set_option linter.unusedSectionVars false

namespace Verif.OQP

open Verif.Mesh Verif.Sparse Verif.MeshFn Verif.NLP Verif.QP Verif.QPSpec
open Verif.MPC (pbmOf)
open scoped Matrix

variable {N nx nu ncr nce n : ℕ} {ι : Type*} [Fintype ι] [DecidableEq ι]

theorem symm_dot {M : ℕ} (P : Matrix (Fin M) (Fin M) ℝ) (hP : P.IsSymm) (x y : Fin M → ℝ) : x ⬝ᵥ P *ᵥ y = y ⬝ᵥ P *ᵥ x := by
  rw [Matrix.dotProduct_mulVec, ← Matrix.mulVec_transpose, hP.eq, dotProduct_comm]

theorem cost_cross {M m : ℕ} (p : Pbm ℝ M m) (hP : p.P.IsSymm) (i j : Fin M) :
    p.P i j = cost p (Pi.single i 1 + Pi.single j 1) - cost p (Pi.single i 1) - cost p (Pi.single j 1) := by
  unfold cost
  simp only [Matrix.mulVec_add, dotProduct_add, add_dotProduct]
  rw [symm_dot p.P hP (Pi.single j 1) (Pi.single i 1)]
  have : Pi.single i (1 : ℝ) ⬝ᵥ p.P *ᵥ Pi.single j 1 = p.P i j := by simp
  rw [this]
  ring

theorem cost_even {M m : ℕ} (p : Pbm ℝ M m) (x : Fin M → ℝ) : x ⬝ᵥ p.P *ᵥ x = cost p x + cost p (-x) := by
  unfold cost
  simp only [Matrix.mulVec_neg, dotProduct_neg, neg_dotProduct]
  ring

/-- On affine functions opposite corners of a parallelogram balance. -/
theorem AffineIn.corners {D : (ι → ℝ) → Prop} {f : (ι → ℝ) → ℝ} (h : AffineIn D f) (p : ι → ℝ) {d e : ι → ℝ} (h1 : D (d + e)) (h2 : D (e - d)) :
    f (p + d + e) + f p = f (p + d) + f (p + e) := by
  have a := h p (d + e) h1 (1 / 2)
  have c := h (p + d) (e - d) h2 (1 / 2)
  have e1 : p + d + (e - d) = p + e := by abel
  have e2 : p + d + (1 / 2 : ℝ) • (e - d) = p + (1 / 2 : ℝ) • (d + e) := by
    funext i; simp; ring
  rw [e1, e2, a, ← add_assoc] at c
  linarith

variable {env : Mesh.Env ℝ} {m : Mesh ℝ} {ocp : OCP ℝ nx nu 1 ncr nce} {lin : Lin ℝ nx nu} {tf b : ℝ}

theorem devEnd_add (z y : QVar N nx nu → ℝ) : devEnd (z + y) = devEnd z + devEnd y := by
  funext a; cases a <;> simp [devEnd]

theorem devEnd_neg (z : QVar N nx nu → ℝ) : devEnd (-z) = -devEnd z := by
  funext a; cases a <;> simp [devEnd]

theorem nodePt_dev (z : QVar (nColloc m) nx nu → ℝ) (i : Fin (nColloc m)) :
    nodePt (tauAt env m i) i (trajVars env m lin tf z) = linPt lin (tf * tauAt env m i) + dev z i := by
  rw [nodePt_traj, linPt_dev]

theorem dev_add (z y : QVar N nx nu → ℝ) (i : Fin N) : dev (z + y) i = dev z i + dev y i := by
  funext a; cases a <;> simp [dev]

theorem dev_neg (z : QVar N nx nu → ℝ) (i : Fin N) : dev (-z) i = -dev z i := by
  funext a; cases a <;> simp [dev]

theorem dev_zero (i : Fin N) : dev (0 : QVar N nx nu → ℝ) i = 0 := by
  funext a; cases a <;> simp [dev]

theorem devEnd_zero : devEnd (0 : QVar N nx nu → ℝ) = 0 := by
  funext a; cases a <;> simp [devEnd]

/-- A unit deviation moves one argument at one node, or none. -/
theorem dev_single (v : QVar N nx nu) (i : Fin N) : dev (Pi.single v 1) i =
    match v with
    | .x j k => if j = i.castSucc then Pi.single (.x k) 1 else 0
    | .u j k => if j = i then Pi.single (.u k) 1 else 0 := by
  funext a
  cases v with
  | x j k =>
    cases a with
    | t => by_cases h : j = i.castSucc <;> simp [dev, h]
    | x l =>
      by_cases h : j = i.castSucc
      · by_cases hk : l = k
        · simp [dev, h, hk]
        · simp [dev, h, hk]
      · simp [dev, h, Ne.symm h]
    | u l => by_cases h : j = i.castSucc <;> simp [dev, h]
  | u j k =>
    cases a with
    | t => by_cases h : j = i <;> simp [dev, h]
    | x l => by_cases h : j = i <;> simp [dev, h]
    | u l =>
      by_cases h : j = i
      · by_cases hk : l = k
        · simp [dev, h, hk]
        · simp [dev, h, hk]
      · simp [dev, h, Ne.symm h]

theorem sameEnd_dev (z y : QVar N nx nu → ℝ) : SameEnd (devEnd z + devEnd y) ∧ SameEnd (devEnd y - devEnd z) := by
  constructor <;> constructor <;> simp [devEnd]

/-- No products of different variables in the integrand: none in the cost of the trajectory. -/
theorem trajCost_cross (hlq : IsLQ ocp b) (hs : Separable SameTime fun p => ocp.g.val p 0) {v w : QVar (nColloc m) nx nu} (hvw : v ≠ w) :
    trajCost env m ocp lin tf (Pi.single v 1 + Pi.single w 1) + trajCost env m ocp lin tf 0 =
      trajCost env m ocp lin tf (Pi.single v 1) + trajCost env m ocp lin tf (Pi.single w 1) := by
  have hsp := trajCost_split (env := env) (m := m) (lin := lin) (tf := tf) hlq.theta_q
  have hth : ocp.theta.val (linEnd lin tf + devEnd (Pi.single v 1) + devEnd (Pi.single w 1)) 0 + ocp.theta.val (linEnd lin tf) 0 =
      ocp.theta.val (linEnd lin tf + devEnd (Pi.single v 1)) 0 + ocp.theta.val (linEnd lin tf + devEnd (Pi.single w 1)) 0 :=
    hlq.theta.corners (linEnd lin tf) (sameEnd_dev (Pi.single v (1 : ℝ)) (Pi.single w 1)).1 (sameEnd_dev (Pi.single v (1 : ℝ)) (Pi.single w 1)).2
  have hg : ∀ i : Fin (nColloc m), ∀ p, ocp.g.val (p + dev (Pi.single v 1 + Pi.single w 1) i) 0 + ocp.g.val (p + dev 0 i) 0 =
      ocp.g.val (p + dev (Pi.single v 1) i) 0 + ocp.g.val (p + dev (Pi.single w 1) i) 0 := by
    intro i p
    rw [dev_add, dev_zero, add_zero, dev_single, dev_single]
    have key : ∀ a a' : Arg nx nu, a ≠ a' → a ≠ .t → a' ≠ .t → ocp.g.val (p + (Pi.single a 1 + Pi.single a' 1)) 0 + ocp.g.val p 0 =
        ocp.g.val (p + Pi.single a 1) 0 + ocp.g.val (p + Pi.single a' 1) 0 := by
      intro a a' h h1 h2
      have := hs p a a' h (by simp [SameTime, Ne.symm h1]) (by simp [SameTime, Ne.symm h2])
      rwa [add_assoc] at this
    cases v with
    | x j k =>
      cases w with
      | x j' k' =>
        by_cases h : j = i.castSucc <;> by_cases h' : j' = i.castSucc <;> simp only [h, h', if_true, if_false, add_zero, zero_add]
        · refine key _ _ (fun e => hvw ?_) (by simp) (by simp)
          cases e; rw [h, h']
        · ring
      | u j' k' =>
        by_cases h : j = i.castSucc <;> by_cases h' : j' = i <;> simp only [h, h', if_true, if_false, add_zero, zero_add]
        · exact key _ _ (by simp) (by simp) (by simp)
        · ring
    | u j k =>
      cases w with
      | x j' k' =>
        by_cases h : j = i <;> by_cases h' : j' = i.castSucc <;> simp only [h, h', if_true, if_false, add_zero, zero_add]
        · exact key _ _ (by simp) (by simp) (by simp)
        · ring
      | u j' k' =>
        by_cases h : j = i <;> by_cases h' : j' = i <;> simp only [h, h', if_true, if_false, add_zero, zero_add]
        · refine key _ _ (fun e => hvw ?_) (by simp) (by simp)
          cases e; rw [h, h']
        · ring
  have hI : integralSpec env m ocp.g.val 0 (trajVars env m lin tf (Pi.single v 1 + Pi.single w 1)) + integralSpec env m ocp.g.val 0 (trajVars env m lin tf 0) =
      integralSpec env m ocp.g.val 0 (trajVars env m lin tf (Pi.single v 1)) + integralSpec env m ocp.g.val 0 (trajVars env m lin tf (Pi.single w 1)) := by
    simp only [integralSpec, nodePt_dev]
    simp only [trajVars, sub_zero]
    rw [← mul_add, ← mul_add, ← Finset.sum_add_distrib, ← Finset.sum_add_distrib]
    congr 1
    refine Finset.sum_congr rfl fun i _ => ?_
    rw [← mul_add, ← mul_add, hg]
  have he : linEnd lin tf + devEnd (Pi.single v 1 + Pi.single w 1) = linEnd lin tf + devEnd (Pi.single v 1) + devEnd (Pi.single w 1) := by
    rw [devEnd_add, add_assoc]
  rw [← he] at hth
  rw [hsp, hsp, hsp, hsp, devEnd_zero, add_zero]
  linear_combination hth + b * hI

/-- A convex integrand with non-negative weight makes the cost of the trajectory convex. -/
theorem trajCost_convex (hlq : IsLQ ocp b) (hb : 0 ≤ b) (htf : 0 ≤ tf) (hw : ∀ i : Fin (nColloc m), 0 ≤ wAt env m i)
    (hc : ConvexIn SameTime fun p => ocp.g.val p 0) (z : QVar (nColloc m) nx nu → ℝ) :
    2 * trajCost env m ocp lin tf 0 ≤ trajCost env m ocp lin tf z + trajCost env m ocp lin tf (-z) := by
  have hsp := trajCost_split (env := env) (m := m) (lin := lin) (tf := tf) hlq.theta_q
  have hth : ocp.theta.val (linEnd lin tf + devEnd z + devEnd (-z)) 0 + ocp.theta.val (linEnd lin tf) 0 =
      ocp.theta.val (linEnd lin tf + devEnd z) 0 + ocp.theta.val (linEnd lin tf + devEnd (-z)) 0 :=
    hlq.theta.corners (linEnd lin tf) (sameEnd_dev z (-z)).1 (sameEnd_dev z (-z)).2
  have hI : 2 * integralSpec env m ocp.g.val 0 (trajVars env m lin tf 0) ≤
      integralSpec env m ocp.g.val 0 (trajVars env m lin tf z) + integralSpec env m ocp.g.val 0 (trajVars env m lin tf (-z)) := by
    simp only [integralSpec, nodePt_dev]
    simp only [trajVars, sub_zero, dev_zero, add_zero, dev_neg]
    rw [← mul_add, ← Finset.sum_add_distrib, mul_left_comm, Finset.mul_sum]
    refine mul_le_mul_of_nonneg_left (Finset.sum_le_sum fun i _ => ?_) htf
    have := mul_le_mul_of_nonneg_left (hc (linPt lin (tf * tauAt env m i)) (dev z i) rfl) (hw i)
    rw [← mul_add, ← sub_eq_add_neg]
    linarith
  rw [hsp, hsp, hsp, devEnd_zero, add_zero]
  have hneg : linEnd lin tf + devEnd z + devEnd (-z) = linEnd lin tf := by rw [devEnd_neg]; abel
  rw [hneg] at hth
  have := mul_le_mul_of_nonneg_left hI hb
  linarith

/-- The program that the solver reads. -/
theorem lq_pbm (hm : m ≠ []) (hK : ∀ v ∈ m, 1 ≤ v.K) (ho : IsDrOCP ocp) (hlq : IsLQ ocp b) (hb : 0 ≤ b) (htf : 0 ≤ tf)
    (hw : ∀ i : Fin (nColloc m), 0 ≤ wAt env m i) (hc : ConvexIn SameTime fun p => ocp.g.val p 0) {qp : QPD ℝ} (hB : Built env m ocp none tf lin qp)
    (hcost : ∀ (z : QVar (nColloc m) nx nu → ℝ) x, IsPrimal z x → cost (toPbm qp (numV (nColloc m) nx nu) (numC (nColloc m) nx ncr nce)) x =
      trajCost env m ocp lin tf z - trajCost env m ocp lin tf 0) :
    Lin.PSD (toPbm qp (numV (nColloc m) nx nu) (numC (nColloc m) nx ncr nce)).P ∧
    ((Separable SameTime fun p => ocp.g.val p 0) →
      pbmOf qp (numV (nColloc m) nx nu) (numC (nColloc m) nx ncr nce) = toPbm qp (numV (nColloc m) nx nu) (numC (nColloc m) nx ncr nce)) := by
  set p := toPbm qp (numV (nColloc m) nx nu) (numC (nColloc m) nx ncr nce) with hp
  have hsym : p.P.IsSymm := by
    ext i j
    change (if j ≤ i then qp.P.val j i else qp.P.val i j) = if i ≤ j then qp.P.val i j else qp.P.val j i
    rcases lt_trichotomy i j with h | h | h
    · rw [if_neg (not_le.2 h), if_pos h.le]
    · rw [h]
    · rw [if_pos h.le, if_neg (not_le.2 h)]
  refine ⟨⟨hsym, fun x => ?_⟩, fun hs => ?_⟩
  · obtain ⟨z, hz, -⟩ := (qp_layout (nColloc m) nx nu ncr nce).2.1 x
    have hz' : IsPrimal (-z) (-x) := fun v h => by simp [hz v h]
    rw [cost_even, hcost z x hz, hcost (-z) (-x) hz']
    have := trajCost_convex (env := env) (m := m) (lin := lin) hlq hb htf hw hc z
    linarith
  · have hone : ∀ v : QVar (nColloc m) nx nu, IsPrimal (Pi.single v 1) (Pi.single (⟨v.pos, v.pos_lt⟩ : Fin (numV (nColloc m) nx nu)) (1 : ℝ)) := by
      intro v w h
      by_cases hvw : w = v
      · subst hvw; simp
      · have : (⟨w.pos, h⟩ : Fin (numV (nColloc m) nx nu)) ≠ ⟨v.pos, v.pos_lt⟩ := fun e => hvw (QVar.pos_inj (Fin.mk.inj_iff.1 e))
        simp [hvw, this]
    have hoff : ∀ v w : QVar (nColloc m) nx nu, v ≠ w → p.P ⟨v.pos, v.pos_lt⟩ ⟨w.pos, w.pos_lt⟩ = 0 := by
      intro v w hvw
      have hadd : IsPrimal (Pi.single v 1 + Pi.single w 1) (Pi.single (⟨v.pos, v.pos_lt⟩ : Fin (numV (nColloc m) nx nu)) (1 : ℝ) + Pi.single ⟨w.pos, w.pos_lt⟩ 1) := by
        intro a h
        simp only [Pi.add_apply, hone v a h, hone w a h]
      rw [cost_cross p hsym, hcost _ _ hadd, hcost _ _ (hone v), hcost _ _ (hone w)]
      have := trajCost_cross (env := env) (m := m) (lin := lin) (tf := tf) hlq hs hvw
      linarith
    have key : (pbmOf qp (numV (nColloc m) nx nu) (numC (nColloc m) nx ncr nce)).P = p.P := by
      funext i j
      obtain ⟨v, hv⟩ := QVar.pos_surj i.2
      obtain ⟨w, hw⟩ := QVar.pos_surj j.2
      obtain rfl : i = ⟨v.pos, v.pos_lt⟩ := Fin.ext hv.symm
      obtain rfl : j = ⟨w.pos, w.pos_lt⟩ := Fin.ext hw.symm
      change qp.P.val v.pos w.pos = _
      by_cases h : v.pos ≤ w.pos
      · change _ = if v.pos ≤ w.pos then qp.P.val v.pos w.pos else qp.P.val w.pos v.pos
        rw [if_pos h]
      · rw [hoff v w (fun e => h (by rw [e])), hB.P, if_neg h]
    rw [hp] at key ⊢
    unfold pbmOf toPbm at key ⊢
    congr 1

/-- Rows of the program close to the box: the point is close to the feasible ones. -/
theorem lq_near (ho : IsDrOCP ocp) (hlq : IsLQ ocp b) (htf : 0 ≤ tf) (hl : OnMesh env m lin tf) (h0 : tauAt env m 0 = 0) (h1 : tauAt env m (nColloc m) = 1)
    {qp : QPD ℝ} (hB : Built env m ocp none tf lin qp) {z : QVar (nColloc m) nx nu → ℝ} {x : Fin (numV (nColloc m) nx nu) → ℝ} (hx : IsPrimal z x)
    {ζ : Fin (numC (nColloc m) nx ncr nce) → ℝ} {r : ℝ} (hζ : InBox (toPbm qp (numV (nColloc m) nx nu) (numC (nColloc m) nx ncr nce)) ζ)
    (hr : ∀ i, |((toPbm qp (numV (nColloc m) nx nu) (numC (nColloc m) nx ncr nce)).A *ᵥ x) i - ζ i| ≤ r) :
    NearFeasible ocp env m r (nlpPoint env m ocp lin tf z) := by
  obtain ⟨hf, hcr, hce, hsl⟩ := lq_values ho hlq hl h0 h1 z
  obtain ⟨rd, rc, re⟩ := built_rows hB z
  have hrow : ∀ c : QCon (nColloc m) nx ncr nce, ∃ ξ, lower (qp.l.val c.pos) ξ ∧ upper (qp.u.val c.pos) ξ ∧
      |(∑ v : QVar (nColloc m) nx nu, qp.A.val c.pos v.pos * z v) - ξ| ≤ r := by
    intro c
    have h := hr ⟨c.pos, c.pos_lt⟩
    rw [row_sum qp hx] at h
    exact ⟨_, (hζ ⟨c.pos, c.pos_lt⟩).1, (hζ ⟨c.pos, c.pos_lt⟩).2, h⟩
  refine ⟨htf, fun i k => ?_, ?_, fun i k => ?_, fun k => ?_⟩
  · obtain ⟨ξ, a1, a2, a3⟩ := hrow (.dyn i k)
    simp only [QCon.pos, rd, hB.dynl, hB.dynu, lower, upper] at a1 a2 a3
    have e := le_antisymm a1 a2
    have hv := hf i k
    unfold taylor1 at hv
    rw [hsl]
    simp only [nlpPoint, Fin.val_castSucc]
    rw [← hv, abs_sub_comm]
    refine le_trans (le_of_eq (congrArg abs ?_)) a3
    unfold coordQ
    simp only [adTerm]
    rw [← e]
    ring
  · simp only [nlpPoint, integralSpec, nodePt_traj, Fin.val_castSucc]
    simp only [trajVars, sub_zero]
  · obtain ⟨ξ, a1, a2, a3⟩ := hrow (.cr i k)
    simp only [QCon.pos, add_assoc, rc, hB.crl, hB.cru, lower_extSub, upper_extSub] at a1 a2 a3
    refine ⟨_, a1, a2, ?_⟩
    have hv := hcr i k
    unfold taylor1 at hv
    simp only [nlpPoint, Fin.val_castSucc]
    rw [← hv]
    refine le_trans (le_of_eq (congrArg abs ?_)) a3
    ring
  · obtain ⟨ξ, a1, a2, a3⟩ := hrow (.ce k)
    simp only [QCon.pos, re, hB.cel, hB.ceu, lower_extSub, upper_extSub] at a1 a2 a3
    refine ⟨_, a1, a2, ?_⟩
    rw [← hce]
    unfold taylor1
    refine le_trans (le_of_eq (congrArg abs ?_)) a3
    ring

/-- **C102 (partial).** Let the problem be linear-quadratic and convex, and the integrand without products of different variables. An Optimal
result of the solver, on the program of `ocp_to_qp`, without polishing, gives a point of the collocated problem that satisfies the constraints up
to the primal tolerance `rp` and costs at most `rd |z' - z|₁ + rp |y|₁` more than any feasible point with that final time. Missing for the full
claim: integrands with products of different variables, for which the claim fails (`lq_never_optimal`). -/
theorem lq_solved_partial (env : Mesh.Env ℝ) {Kmin Kmax : ℕ} (hK : 1 ≤ Kmin) (m : Mesh ℝ) (hm : Valid Kmin Kmax m)
    (hL : ∀ K, Kmin ≤ K → K ≤ Kmax + 1 → IsLGR env K) (ocp : OCP ℝ nx nu 1 ncr nce) (ho : IsDrOCP ocp) (b : ℝ) (hb : 0 ≤ b) (hlq : IsLQ ocp b)
    (hc : ConvexIn SameTime fun p => ocp.g.val p 0) (hs : Separable SameTime fun p => ocp.g.val p 0)
    (tf : ℝ) (htf : 0 ≤ tf) (lin : Lin ℝ nx nu) (hl : OnMesh env m lin tf)
    (qenv : QP.Env ℝ (numV (nColloc m) nx nu)) (prm : Params ℝ) (hsq : SqrtPos qenv) (hrho : 0 < prm.rho) (hpol : prm.polish = false) :
    ∃ qp, ocpToQp env m ocp none tf lin = some qp ∧
      ∀ ws fuel sol, solveQP qenv prm (pbmOf qp (numV (nColloc m) nx nu) (numC (nColloc m) nx ncr nce)) ws fuel = .ok sol → sol.code = .optimal →
      ∃ (z : QVar (nColloc m) nx nu → ℝ) (ζ : Fin (numC (nColloc m) nx ncr nce) → ℝ) (rp rd : ℝ), IsPrimal z sol.primal ∧
        Tol prm.epsAbs prm.epsRel ((toPbm qp (numV (nColloc m) nx nu) (numC (nColloc m) nx ncr nce)).A *ᵥ sol.primal) ζ ζ rp ∧
        Tol prm.epsAbs prm.epsRel ((toPbm qp (numV (nColloc m) nx nu) (numC (nColloc m) nx ncr nce)).P *ᵥ sol.primal)
          (toPbm qp (numV (nColloc m) nx nu) (numC (nColloc m) nx ncr nce)).q
          ((toPbm qp (numV (nColloc m) nx nu) (numC (nColloc m) nx ncr nce)).Aᵀ *ᵥ sol.dual) rd ∧
        NearFeasible ocp env m rp (nlpPoint env m ocp lin tf z) ∧
        ∀ z', NLP.Feasible ocp env m (nlpPoint env m ocp lin tf z') → objective ocp (nlpPoint env m ocp lin tf z) ≤
          objective ocp (nlpPoint env m ocp lin tf z') + rd * ∑ v, |z' v - z v| + rp * ∑ i, |sol.dual i| := by
  obtain ⟨h0, h1, -⟩ := Flatten.tauAt_bounds env hK m hm hL
  have hm' := hm.ne_nil
  have hK' : ∀ v ∈ m, 1 ≤ v.K := fun v hv => hK.trans (hm.degree v hv).1
  have hw : ∀ i : Fin (nColloc m), 0 ≤ wAt env m i := fun i => (wAt_pos env hm hL i).le
  obtain ⟨qp, e, hex, -⟩ := lq_exact env hK m hm hL ocp ho b hlq tf htf lin hl
  obtain ⟨qp', e', hB⟩ := ocpToQp_built env m hm' hK' ocp ho none (by intro a h; cases h) tf lin
  obtain rfl : qp' = qp := Option.some.inj (e'.symm.trans e)
  refine ⟨qp', e, fun ws fuel sol hsol hopt => ?_⟩
  obtain ⟨hpsd, heq⟩ := lq_pbm (env := env) (lin := lin) hm' hK' ho hlq hb htf hw hc hB fun z x hx => by
    rw [(hex z x hx).2, nlpPoint_objective h0 h1, nlpPoint_objective h0 h1]
  rw [heq hs] at hsol
  obtain ⟨⟨ζ, rp, rd, hz, hcomp, t1, t2, t3, t4⟩, -⟩ := qp_optimal_certificate hsq hrho hpol hsol hopt
  obtain ⟨z, hzx, -⟩ := (qp_layout (nColloc m) nx nu ncr nce).2.1 sol.primal
  refine ⟨z, ζ, rp, rd, hzx, t1, t3, lq_near ho hlq htf hl h0 h1 hB hzx hz t2, fun z' hz' => ?_⟩
  obtain ⟨x', hx', -⟩ := (qp_layout (nColloc m) nx nu ncr nce).1 z'
  have hg := gap_bound hpsd hcomp t2 t4 ((hex z' x' hx').1.2 hz')
  rw [(hex z _ hzx).2, (hex z' _ hx').2, sum_vars] at hg
  have : ∀ v : QVar (nColloc m) nx nu, |x' ⟨v.pos, v.pos_lt⟩ - sol.primal ⟨v.pos, v.pos_lt⟩| = |z' v - z v| := fun v => by
    rw [hx' v v.pos_lt, hzx v v.pos_lt]
  simp only [this] at hg
  linarith

/-- **C102.** If also every constraint has a bound, the solver returns, without any limit, polishing or not. -/
theorem lq_returns (env : Mesh.Env ℝ) {Kmin Kmax : ℕ} (hK : 1 ≤ Kmin) (m : Mesh ℝ) (hm : Valid Kmin Kmax m)
    (hL : ∀ K, Kmin ≤ K → K ≤ Kmax + 1 → IsLGR env K) (ocp : OCP ℝ nx nu 1 ncr nce) (ho : IsDrOCP ocp) (b : ℝ) (hb : 0 ≤ b) (hlq : IsLQ ocp b)
    (hc : ConvexIn SameTime fun p => ocp.g.val p 0) (hs : Separable SameTime fun p => ocp.g.val p 0)
    (tf : ℝ) (htf : 0 ≤ tf) (lin : Lin ℝ nx nu) (hl : OnMesh env m lin tf)
    (hcr : ∀ k, ocp.crl k ≠ .neg ∨ ocp.cru k ≠ .pos) (hce : ∀ k, ocp.cel k ≠ .neg ∨ ocp.ceu k ≠ .pos)
    (qenv : QP.Env ℝ (numV (nColloc m) nx nu)) (prm : Params ℝ) (hsq : SqrtPos qenv) (hld : LdltOk qenv) (ha : 0 < prm.alpha)
    (ha' : prm.alpha < 2) (hsig : 0 < prm.sigma) (hr : 0 < prm.rho) (hea : 0 < prm.epsAbs) (her : 0 ≤ prm.epsRel)
    (hep : 0 < prm.epsPrimalInf) (hed : 0 < prm.epsDualInf) (hsc : 2 ≤ prm.stopCheckIter)
    (hdim : prm.scaling = true → numV (nColloc m) nx nu ≠ 0 ∧ numC (nColloc m) nx ncr nce ≠ 0)
    (hf : ∀ p : Pbm ℝ (numV (nColloc m) nx nu) (numC (nColloc m) nx ncr nce), Lin.PSD p.P →
      ∀ s : Scaling ℝ (numV (nColloc m) nx nu) (numC (nColloc m) nx ncr nce), s.Pos → qenv.factor _ (kkt prm.sigma p s (rhoVec prm p s)) ≠ none) :
    ∃ qp, ocpToQp env m ocp none tf lin = some qp ∧ ∀ ws, ∃ N, ∀ fuel, N ≤ fuel →
      ∃ sol, solveQP qenv prm (pbmOf qp (numV (nColloc m) nx nu) (numC (nColloc m) nx ncr nce)) ws fuel = .ok sol := by
  obtain ⟨h0, h1, -⟩ := Flatten.tauAt_bounds env hK m hm hL
  have hm' := hm.ne_nil
  have hK' : ∀ v ∈ m, 1 ≤ v.K := fun v hv => hK.trans (hm.degree v hv).1
  have hw : ∀ i : Fin (nColloc m), 0 ≤ wAt env m i := fun i => (wAt_pos env hm hL i).le
  obtain ⟨qp, e, hex, -⟩ := lq_exact env hK m hm hL ocp ho b hlq tf htf lin hl
  obtain ⟨qp', e', hB⟩ := ocpToQp_built env m hm' hK' ocp ho none (by intro a h; cases h) tf lin
  obtain rfl : qp' = qp := Option.some.inj (e'.symm.trans e)
  refine ⟨qp', e, fun ws => ?_⟩
  obtain ⟨hpsd, heq⟩ := lq_pbm (env := env) (lin := lin) hm' hK' ho hlq hb htf hw hc hB fun z x hx => by
    rw [(hex z x hx).2, nlpPoint_objective h0 h1, nlpPoint_objective h0 h1]
  rw [heq hs]
  refine qp_always_returns_bounds hsq hld hpsd ha ha' hsig hr hea her hep hed hsc hdim (fun s => hf _ hpsd s) (Or.inr fun i => ?_)
  have hne : ∀ (x : Ext ℝ) (a : ℝ), (x ≠ .neg → extSub x a ≠ .neg) ∧ (x ≠ .pos → extSub x a ≠ .pos) := by
    intro x a; cases x <;> simp [extSub]
  obtain ⟨c, hc', -⟩ := (qp_layout (nColloc m) nx nu ncr nce).2.2 i i.2
  change qp'.l.val i ≠ _ ∨ qp'.u.val i ≠ _
  rw [← hc']
  cases c with
  | dyn j k => left; rw [QCon.pos, hB.dynl]; simp
  | cr j k =>
    rw [QCon.pos, add_assoc, hB.crl, hB.cru]
    exact (hcr k).imp (hne _ _).1 (hne _ _).2
  | ce k =>
    rw [QCon.pos, hB.cel, hB.ceu]
    exact (hce k).imp (hne _ _).1 (hne _ _).2

end Verif.OQP
