import Verif.Proofs.OCPQPCon

/-! # The cost of the quadratic program, and the whole conversion -/

set_option linter.unusedSectionVars false

namespace Verif.OQP

open Verif.Mesh Verif.Sparse Verif.MeshFn Verif.NLP Verif.QP Verif.QPSpec

variable {N nx nu ncr nce : ℕ}

theorem loc_x0 (v : QVar N nx nu) : loc 0 nx v.pos = match v with
    | .x j k => if j = 0 then some (k : ℕ) else none
    | .u _ _ => none := by
  have := loc_xcol (nx := nx) (N := N) 0 (by omega) v
  rw [Nat.zero_mul] at this
  refine this.trans ?_
  cases v with
  | x j k =>
    simp only
    by_cases h : j = 0
    · subst h; simp
    · rw [if_neg h, if_neg]
      intro h'
      exact h (Fin.ext (by rw [Fin.val_zero]; exact h'.symm))
  | u => rfl

theorem loc_xN (v : QVar N nx nu) : loc (nx * N) nx v.pos = match v with
    | .x j k => if j = Fin.last N then some (k : ℕ) else none
    | .u _ _ => none := by
  have := loc_xcol (nx := nx) (N := N) N (by omega) v
  rw [Nat.mul_comm N nx] at this
  refine (congrArg (fun c => loc c nx v.pos) (Nat.zero_add _).symm).trans (this.trans ?_)
  cases v with
  | x j k =>
    simp only
    by_cases h : j = Fin.last N
    · subst h; simp
    · rw [if_neg h, if_neg]
      intro h'
      exact h (Fin.ext (by rw [Fin.val_last]; exact h'.symm))
  | u => rfl

/-- Second derivatives at the end points, as coefficients of pairs of variables. -/
def pullQQ {M : Type*} [AddZeroClass M] (φ : EArg nx 1 → EArg nx 1 → M) (v w : QVar N nx nu) : M :=
  pullQ (fun a => pullQ (fun b => φ a b) w) v

theorem endBlocks_sum (hN : 1 ≤ N) (H : Sp ℝ) (v w : QVar N nx nu) :
    ((endCostBlocks nx N H).map fun b => b.contrib v.pos w.pos).sum =
      if v.pos ≤ w.pos then 1 / 2 * pullQQ (fun a b => H.val a.pos b.pos) v w else 0 := by
  simp only [endCostBlocks, List.map_cons, List.map_nil, List.sum_cons, List.sum_nil, contrib_block, true_and, loc_x0, loc_xN]
  by_cases hvw : v.pos ≤ w.pos
  · have h0L : (0 : Fin (N + 1)) ≠ Fin.last N := by
      intro h
      have h := congrArg Fin.val h
      rw [Fin.val_zero, Fin.val_last] at h
      omega
    simp only [if_neg (not_lt.mpr hvw), if_pos hvw]
    cases v with
    | u i k => simp [pullQQ, pullQ]
    | x i k =>
      cases w with
      | u j l => simp [pullQQ, pullQ]
      | x j l =>
        simp only [pullQQ, pullQ]
        by_cases hi : i = 0 <;> by_cases hi' : i = Fin.last N <;> by_cases hj : j = 0 <;> by_cases hj' : j = Fin.last N <;>
          first
          | (exfalso; exact h0L (hi.symm.trans hi'))
          | (exfalso; exact h0L (hj.symm.trans hj'))
          | (simp [hi, hi', hj, hj', h0L, h0L.symm, EArg.pos]; done)
          | (exfalso
             subst hi' hj
             simp only [QVar.pos, Fin.val_last, Fin.val_zero] at hvw
             have := l.2
             have := Nat.le_mul_of_pos_right nx hN
             omega)
  · simp [if_neg hvw, not_le.mp hvw]

/-- The integral of the cost as a function over the mesh. -/
noncomputable def intCost (env : Mesh.Env ℝ) (m : Mesh ℝ) (ocp : OCP ℝ nx nu 1 ncr nce) : (Var (nColloc m) nx nu → ℝ) → ℝ :=
  integralSpec env m ocp.g.val 0

/-- The work memory of the integral is in order. -/
def IntOk (N nx nu : ℕ) (o : MV ℝ) : Prop := Sized 2 1 (numVars N nx nu) o ∧ o.lambda.size = 1 ∧ o.lambda.val 0 = 1

/-- The cost in terms of what `mesh_integrate` leaves. -/
theorem updateCost_of_int (env : Mesh.Env ℝ) (m : Mesh ℝ) (hN : 1 ≤ nColloc m) (ocp : OCP ℝ nx nu 1 ncr nce) (tf : ℝ)
    (lin : Lin ℝ nx nu) (s : QPD ℝ × Work ℝ) (hP : s.1.P.rows = numV (nColloc m) nx nu ∧ s.1.P.cols = numV (nColloc m) nx nu)
    (hq : s.1.q.size = numV (nColloc m) nx nu) (int : MV ℝ)
    (eint : meshIntegrate 2 env m ocp.g 0 tf (atNodes env m fun t => lin.x (timeAt tf t)) (atNodes env m fun t => lin.u (timeAt tf t)) s.2.int = some int)
    (Jv : QVar (nColloc m) nx nu → ℝ) (hJv : ∀ v, int.dF.val 0 (2 + v.pos) = Jv v) (Hv : QVar (nColloc m) nx nu → QVar (nColloc m) nx nu → ℝ)
    (hHv : ∀ v w, int.d2F.val (2 + v.pos) (2 + w.pos) = if v.pos ≤ w.pos then Hv v w else 0) :
    ∃ P q, updateCost env m ocp tf lin s = some ({ s.1 with P := P, q := q }, { s.2 with int := int }) ∧
      (P.rows = numV (nColloc m) nx nu ∧ P.cols = numV (nColloc m) nx nu) ∧ q.size = numV (nColloc m) nx nu ∧
      (∀ v w : QVar (nColloc m) nx nu, P.val v.pos w.pos = if v.pos ≤ w.pos then
          (ocp.theta.jac (linEnd lin tf)).val 0 (1 + 2 * nx) * Hv v w +
            1 / 2 * pullQQ (fun a b => (ocp.theta.hess (linEnd lin tf)).val a.pos b.pos) v w else 0) ∧
      (∀ v : QVar (nColloc m) nx nu, q.val v.pos = (ocp.theta.jac (linEnd lin tf)).val 0 (1 + 2 * nx) * Jv v +
            pullQ (fun a => (ocp.theta.jac (linEnd lin tf)).val 0 a.pos) v) := by
  have he : endLin lin tf = linEnd lin tf := by funext a; cases a <;> rfl
  set N := nColloc m with hNd
  set J := ocp.theta.jac (linEnd lin tf) with hJ
  set Hs := ocp.theta.hess (linEnd lin tf) with hHs
  set qo := J.val 0 (1 + 2 * nx) with hqo
  have hnum : xvarL nx N + uvarL nu N = numV N nx nu := rfl
  have hmul : nx * (N + 1) = nx * N + nx := Nat.mul_succ _ _
  obtain ⟨P, eP, sP, hPv, -, -⟩ := blockAdds_ents (⟨0, 0, int.d2F.block 2 2 (xvarL nx N + uvarL nu N) (xvarL nx N + uvarL nu N), qo, true⟩ ::
        endCostBlocks nx N Hs) (Sparse.setZero s.1.P) (by
    intro b hb
    simp only [endCostBlocks, List.mem_cons, List.not_mem_nil, or_false] at hb
    have h1 : (Sparse.setZero s.1.P).rows = numV N nx nu := hP.1
    have h2 : (Sparse.setZero s.1.P).cols = numV N nx nu := hP.2
    unfold Blk.Fits
    rw [h1, h2]
    rcases hb with rfl | rfl | rfl | rfl <;> simp only [Sp.block, numV, xvarL, uvarL] <;> constructor <;> omega)
  obtain ⟨q1, eq1, hq1⟩ : ∃ q1, Vec.setSeg (⟨s.1.q.size, fun _ => 0⟩ : Vec ℝ) xvarB (xvarL nx N) (fun r => qo * int.dF.val 0 (2 + r)) = some q1 ∧
      q1 = ⟨s.1.q.size, fun r => ((loc xvarB (xvarL nx N) r).map fun r => qo * int.dF.val 0 (2 + r)).getD 0⟩ :=
    ⟨_, setSeg_loc _ _ _ _ (by simp only [hq]; unfold xvarB xvarL numV; omega), rfl⟩
  obtain ⟨q2, eq2, hq2⟩ : ∃ q2, q1.setSeg (uvarB nx N) (uvarL nu N) (fun r => qo * int.dF.val 0 (2 + xvarL nx N + r)) = some q2 ∧
      q2 = ⟨s.1.q.size, fun r => ((loc (uvarB nx N) (uvarL nu N) r).map fun r => qo * int.dF.val 0 (2 + xvarL nx N + r)).getD (q1.val r)⟩ := by
    refine ⟨_, setSeg_loc _ _ _ _ ?_, ?_⟩
    · rw [hq1]; simp only [hq]; unfold uvarB uvarL xvarL numV; omega
    · rw [hq1]
  obtain ⟨q3, eq3, hq3⟩ : ∃ q3, q2.addSeg 0 nx (fun r => J.val 0 (1 + r)) = some q3 ∧
      q3 = ⟨s.1.q.size, fun r => q2.val r + if 0 ≤ r ∧ r < 0 + nx then J.val 0 (1 + (r - 0)) else 0⟩ := by
    refine ⟨_, addSeg_eq _ _ _ _ ?_, ?_⟩
    · rw [hq2]; simp only [hq]; unfold numV; omega
    · rw [hq2]
  obtain ⟨q4, eq4, hq4⟩ : ∃ q4, q3.addSeg (nx * N) nx (fun r => J.val 0 (1 + nx + r)) = some q4 ∧
      q4 = ⟨s.1.q.size, fun r => q3.val r + if nx * N ≤ r ∧ r < nx * N + nx then J.val 0 (1 + nx + (r - nx * N)) else 0⟩ := by
    refine ⟨_, addSeg_eq _ _ _ _ ?_, ?_⟩
    · rw [hq3]; simp only [hq]; unfold numV; omega
    · rw [hq3]
  have hadd : ∀ (b : ℕ) (g : ℕ → ℝ) (r : ℕ), (if b ≤ r ∧ r < b + nx then g (r - b) else 0) = ((loc b nx r).map g).getD 0 := by
    intro b g r; unfold loc; split <;> rfl
  refine ⟨P, q4, ?_, ⟨sP.1.trans hP.1, sP.2.1.trans hP.2⟩, by rw [hq4]; exact hq, ?_, ?_⟩
  · unfold updateCost
    simp only [he, ← hNd, ← hJ, ← hHs, ← hqo, eint, eP, eq1, eq2, eq3, eq4]
  · intro v w
    have hz : (Sparse.setZero s.1.P).val v.pos w.pos = 0 := setZero_val _ _ _
    have hw1 := v.pos_lt
    have hw2 := w.pos_lt
    rw [hPv, hz, List.map_cons, List.sum_cons, endBlocks_sum hN, contrib_block]
    rw [loc_some (a := v.pos) (by omega) (by rw [hnum]; exact hw1), loc_some (a := w.pos) (by omega) (by rw [hnum]; exact hw2)]
    simp only [true_and, Option.bind_some, Option.map_some, Option.getD_some]
    by_cases h : v.pos ≤ w.pos
    · rw [if_neg (not_lt.mpr h), if_pos h, if_pos h, hHv, if_pos h, zero_add]
    · rw [if_pos (not_le.mp h), if_neg h, if_neg h]; simp
  · intro v
    rw [hq4]
    simp only
    rw [hadd (nx * N) (fun r => J.val 0 (1 + nx + r)), hq3]
    simp only
    rw [hadd 0 (fun r => J.val 0 (1 + r)), loc_x0, loc_xN, hq2]
    simp only
    rw [hq1]
    simp only
    rw [← hJv, add_assoc]
    congr 1
    · cases v with
      | x i k =>
        have : (QVar.x i k : QVar N nx nu).pos < nx * (N + 1) := row_le i k
        rw [loc_none (by left; exact this), loc_some (s := xvarB) (l := xvarL nx N) (a := (QVar.x i k : QVar N nx nu).pos) (by unfold xvarB; omega) this]
        rfl
      | u i k =>
        have := row_le i k
        rw [loc_some (s := uvarB nx N) (l := uvarL nu N) (p := (QVar.u i k : QVar N nx nu).pos) (a := nu * i + k) (by simp only [QVar.pos, uvarB, xvarL]; omega) this]
        simp only [Option.map_some, Option.getD_some, QVar.pos, xvarL]
        congr 2
        change 2 + nx * (N + 1) + (nu * i + k) = 2 + (nx * (N + 1) + nu * i + k)
        omega
    · cases v with
      | u i k => simp [pullQ]
      | x i k =>
        simp only [pullQ, EArg.pos]
        congr 1 <;> split <;> rfl

theorem updateCost_spec (env : Mesh.Env ℝ) (m : Mesh ℝ) (hN : 1 ≤ nColloc m) (ocp : OCP ℝ nx nu 1 ncr nce) (hg : IsDr ocp.g) (tf : ℝ)
    (lin : Lin ℝ nx nu) (s : QPD ℝ × Work ℝ) (hP : s.1.P.rows = numV (nColloc m) nx nu ∧ s.1.P.cols = numV (nColloc m) nx nu)
    (hq : s.1.q.size = numV (nColloc m) nx nu) (hI : IntOk (nColloc m) nx nu s.2.int) :
    ∃ P q int, updateCost env m ocp tf lin s = some ({ s.1 with P := P, q := q }, { s.2 with int := int }) ∧
      (P.rows = numV (nColloc m) nx nu ∧ P.cols = numV (nColloc m) nx nu) ∧ q.size = numV (nColloc m) nx nu ∧
      IntOk (nColloc m) nx nu int ∧
      (∀ v w : QVar (nColloc m) nx nu, P.val v.pos w.pos = if v.pos ≤ w.pos then
          (ocp.theta.jac (linEnd lin tf)).val 0 (1 + 2 * nx) * pd (pd (intCost env m ocp) v.toVar) w.toVar (linVars env m lin tf) +
            1 / 2 * pullQQ (fun a b => (ocp.theta.hess (linEnd lin tf)).val a.pos b.pos) v w else 0) ∧
      (∀ v : QVar (nColloc m) nx nu, q.val v.pos =
          (ocp.theta.jac (linEnd lin tf)).val 0 (1 + 2 * nx) * pd (intCost env m ocp) v.toVar (linVars env m lin tf) +
            pullQ (fun a => (ocp.theta.jac (linEnd lin tf)).val 0 a.pos) v) := by
  obtain ⟨hI1, hI2, hI3⟩ := hI
  obtain ⟨int, eint, H⟩ := mesh_integrate_exact 2 env m ocp.g (fun _ => hg) (fun _ => le_rfl) (linVars env m lin tf) s.2.int
    ⟨hI1.size, hI1.dF_shape, hI1.d2F_shape, fun _ => hI2⟩
  rw [← meshIntegrate_lin] at eint
  obtain ⟨P, q, e, h1, h2, h3, h4⟩ := updateCost_of_int env m hN ocp tf lin s hP hq int eint
    (fun v => pd (intCost env m ocp) v.toVar (linVars env m lin tf)) (fun v => by
      have hj := H.jac (by norm_num) 0 v.toVar
      rw [toVar_pos] at hj
      exact hj)
    (fun v w => pd (pd (intCost env m ocp) v.toVar) w.toVar (linVars env m lin tf)) (fun v w => by
      have hh := H.hess le_rfl v.toVar w.toVar
      rw [toVar_pos, toVar_pos] at hh
      rw [hh]
      by_cases h : v.pos ≤ w.pos
      · rw [if_pos h, if_pos (by omega)]
        have : (fun z => ∑ r : Fin 1, s.2.int.lambda.val r * integralSpec env m ocp.g.val r z) = intCost env m ocp := by
          funext z
          simp [hI3, intCost]
        rw [this]
      · rw [if_neg h, if_neg (by omega)])
  exact ⟨P, q, int, e, h1, h2, ⟨H.sized, by rw [H.lambda_kept]; exact hI2, by rw [H.lambda_kept]; exact hI3⟩, h3, h4⟩

/-- The cost in terms of the records of the integrand. -/
theorem updateCost_raw (env : Mesh.Env ℝ) (m : Mesh ℝ) (hN : 1 ≤ nColloc m) (ocp : OCP ℝ nx nu 1 ncr nce) (hg : ∀ p, (ocp.g.jac p).rows = 1)
    (tf : ℝ) (lin : Lin ℝ nx nu) (s : QPD ℝ × Work ℝ) (hP : s.1.P.rows = numV (nColloc m) nx nu ∧ s.1.P.cols = numV (nColloc m) nx nu)
    (hq : s.1.q.size = numV (nColloc m) nx nu) (hI : IntOk (nColloc m) nx nu s.2.int) :
    ∃ P q int, updateCost env m ocp tf lin s = some ({ s.1 with P := P, q := q }, { s.2 with int := int }) ∧
      (P.rows = numV (nColloc m) nx nu ∧ P.cols = numV (nColloc m) nx nu) ∧ q.size = numV (nColloc m) nx nu ∧
      IntOk (nColloc m) nx nu int ∧
      (∀ v w : QVar (nColloc m) nx nu, P.val v.pos w.pos = if v.pos ≤ w.pos then
          (ocp.theta.jac (linEnd lin tf)).val 0 (1 + 2 * nx) * (∑ i : Fin (nColloc m), wAt env m i * (tf *
            pullN i (fun a => pullN i (fun b => (ocp.g.hess (linPt lin (tf * tauAt env m i))).val a.pos b.pos) w) v)) +
            1 / 2 * pullQQ (fun a b => (ocp.theta.hess (linEnd lin tf)).val a.pos b.pos) v w else 0) ∧
      (∀ v : QVar (nColloc m) nx nu, q.val v.pos =
          (ocp.theta.jac (linEnd lin tf)).val 0 (1 + 2 * nx) * (∑ i : Fin (nColloc m), wAt env m i * (tf *
            pullN i (fun a => (ocp.g.jac (linPt lin (tf * tauAt env m i))).val 0 a.pos) v)) +
            pullQ (fun a => (ocp.theta.jac (linEnd lin tf)).val 0 a.pos) v) := by
  obtain ⟨hI1, hI2, hI3⟩ := hI
  obtain ⟨int, eint, H⟩ := mesh_integrate_raw 2 env m ocp.g (fun _ => hg) (fun _ => le_rfl) (linVars env m lin tf) s.2.int
    ⟨hI1.size, hI1.dF_shape, hI1.d2F_shape, fun _ => hI2⟩
  rw [← meshIntegrate_lin] at eint
  have hds : ∀ v : QVar (nColloc m) nx nu, dspan (F := ℝ) v.toVar = 0 := fun v => by cases v <;> rfl
  have htf : linVars env m lin tf .tf - linVars env m lin tf .t0 = tf := by simp [linVars]
  obtain ⟨P, q, e, h1, h2, h3, h4⟩ := updateCost_of_int env m hN ocp tf lin s hP hq int eint
    (fun v => ∑ i : Fin (nColloc m), wAt env m i * (tf * pullN i (fun a => (ocp.g.jac (linPt lin (tf * tauAt env m i))).val 0 a.pos) v))
    (fun v => by
      have hj := H.jac (by norm_num) 0 v.toVar
      rw [toVar_pos] at hj
      refine hj.trans (Finset.sum_congr rfl fun i _ => ?_)
      rw [hds, zero_mul, zero_add, htf, nodePt_lin, pull_toVar]
      rfl)
    (fun v w => ∑ i : Fin (nColloc m), wAt env m i * (tf *
      pullN i (fun a => pullN i (fun b => (ocp.g.hess (linPt lin (tf * tauAt env m i))).val a.pos b.pos) w) v)) (fun v w => by
      have hh := H.hess le_rfl v.toVar w.toVar
      rw [toVar_pos, toVar_pos] at hh
      rw [hh]
      by_cases h : v.pos ≤ w.pos
      · rw [if_pos h, if_pos (by omega)]
        refine Finset.sum_congr rfl fun i _ => ?_
        simp only [hds, zero_mul, zero_add, htf, nodePt_lin, pull_toVar, Fin.sum_univ_one, Fin.val_zero, Nat.mul_zero, hI3, mul_one]
      · rw [if_neg h, if_neg (by omega)])
  exact ⟨P, q, int, e, h1, h2, ⟨H.sized, by rw [H.lambda_kept]; exact hI2, by rw [H.lambda_kept]; exact hI3⟩, h3, h4⟩

/-! ### The whole conversion -/

/-- What holds of the program and the work memory between calls; `S` is the pattern of the Jacobian of the end constraints. -/
structure QInv (N nx nu ncr nce : ℕ) (S : ℕ → ℕ → Prop) (s : QPD ℝ × Work ℝ) : Prop where
  P : s.1.P.rows = numV N nx nu ∧ s.1.P.cols = numV N nx nu
  q : s.1.q.size = numV N nx nu
  con : CSize N nx nu ncr nce s.1
  int : IntOk N nx nu s.2.int
  cr : CrStored N nx nu ncr s
  ce : CeStored N nx nu ncr nce S s.1.A

/-- Every number of the program. -/
structure Built (env : Mesh.Env ℝ) (m : Mesh ℝ) (ocp : OCP ℝ nx nu 1 ncr nce) (ad : Option ((Fin nx → ℝ) → Sp ℝ)) (tf : ℝ)
    (lin : Lin ℝ nx nu) (qp : QPD ℝ) : Prop where
  size : HasSize qp (numV (nColloc m) nx nu) (numC (nColloc m) nx ncr nce)
  dyn : ∀ (p : Fin (nColloc m)) (k : Fin nx) (v : QVar (nColloc m) nx nu), qp.A.val (nx * p + k) v.pos =
    tf * pullN p (fun a => pd (fun y => ocp.f.val y k) a (linPt lin (tf * tauAt env m p))) v +
      -tf / 2 * pullN p (adRow ad (ocp.f.val (linPt lin (tf * tauAt env m p)) + lin.dx (tf * tauAt env m p)) k) v -
      slope env (spans 1 m) (coordQ (unitQ v) k) p
  dynl : ∀ (p : Fin (nColloc m)) (k : Fin nx), qp.l.val (nx * p + k) =
    .fin (-tf * (ocp.f.val (linPt lin (tf * tauAt env m p)) k - lin.dx (tf * tauAt env m p) k))
  dynu : ∀ (p : Fin (nColloc m)) (k : Fin nx), qp.u.val (nx * p + k) =
    .fin (-tf * (ocp.f.val (linPt lin (tf * tauAt env m p)) k - lin.dx (tf * tauAt env m p) k))
  cr : ∀ (i : Fin (nColloc m)) (k : Fin ncr) (v : QVar (nColloc m) nx nu), qp.A.val (nx * nColloc m + (ncr * i + k)) v.pos =
    pullN i (fun a => pd (fun p => ocp.cr.val p k) a (linPt lin (tf * tauAt env m i))) v
  crl : ∀ (i : Fin (nColloc m)) (k : Fin ncr), qp.l.val (nx * nColloc m + (ncr * i + k)) =
    extSub (ocp.crl k) (ocp.cr.val (linPt lin (tf * tauAt env m i)) k)
  cru : ∀ (i : Fin (nColloc m)) (k : Fin ncr), qp.u.val (nx * nColloc m + (ncr * i + k)) =
    extSub (ocp.cru k) (ocp.cr.val (linPt lin (tf * tauAt env m i)) k)
  ce : ∀ (k : Fin nce) (v : QVar (nColloc m) nx nu), qp.A.val (nx * nColloc m + ncr * nColloc m + k) v.pos =
    pullQ (fun a => pd (fun p => ocp.ce.val p k) a (linEnd lin tf)) v
  cel : ∀ k : Fin nce, qp.l.val (nx * nColloc m + ncr * nColloc m + k) = extSub (ocp.cel k) (ocp.ce.val (linEnd lin tf) k)
  ceu : ∀ k : Fin nce, qp.u.val (nx * nColloc m + ncr * nColloc m + k) = extSub (ocp.ceu k) (ocp.ce.val (linEnd lin tf) k)
  P : ∀ v w : QVar (nColloc m) nx nu, qp.P.val v.pos w.pos = if v.pos ≤ w.pos then
    pd (fun e => ocp.theta.val e 0) (.q 0) (linEnd lin tf) * pd (pd (intCost env m ocp) v.toVar) w.toVar (linVars env m lin tf) +
      1 / 2 * pullQQ (fun a b => pd (pd (fun e => ocp.theta.val e 0) a) b (linEnd lin tf)) v w else 0
  q : ∀ v : QVar (nColloc m) nx nu, qp.q.val v.pos =
    pd (fun e => ocp.theta.val e 0) (.q 0) (linEnd lin tf) * pd (intCost env m ocp) v.toVar (linVars env m lin tf) +
      pullQ (fun a => pd (fun e => ocp.theta.val e 0) a (linEnd lin tf)) v

theorem CrStored.of_ent {s s' : QPD ℝ × Work ℝ} (h : CrStored N nx nu ncr s) (hw : s'.2.cr = s.2.cr)
    (he : ∀ r, nx * N ≤ r → r < nx * N + ncr * N → ∀ c, s'.1.A.ent r c = s.1.A.ent r c) : CrStored N nx nu ncr s' := by
  obtain ⟨h1, h2, h3⟩ := h
  refine ⟨by rw [hw]; exact h1, by rw [hw]; exact h2, fun r c hr hc h => ?_⟩
  rw [hw]
  rw [he _ (by omega) (by omega)] at h
  exact h3 r c hr hc h

theorem CeStored.of_ent {S : ℕ → ℕ → Prop} {A A' : Sp ℝ} (h : CeStored N nx nu ncr nce S A)
    (he : ∀ r, nx * N + ncr * N ≤ r → ∀ c, A'.ent r c = A.ent r c) : CeStored N nx nu ncr nce S A' := by
  intro k v hv
  rw [he _ (by omega)] at hv
  exact h k v hv

theorem update_spec (env : Mesh.Env ℝ) (m : Mesh ℝ) (hm : m ≠ []) (hN : 1 ≤ nColloc m) (ocp : OCP ℝ nx nu 1 ncr nce) (ho : IsDrOCP ocp)
    (ad : Option ((Fin nx → ℝ) → Sp ℝ)) (hA : IsAd ad) (tf : ℝ) (lin : Lin ℝ nx nu) (S : ℕ → ℕ → Prop)
    (hS : ∀ (k : Fin nce) c, 1 ≤ c → c < 1 + 2 * nx → (S k c ↔ (ocp.ce.jac (linEnd lin tf)).ent k c ≠ none))
    (s : QPD ℝ × Work ℝ) (hs : QInv (nColloc m) nx nu ncr nce S s) :
    ∃ s', update env m ocp ad tf lin s = some s' ∧ QInv (nColloc m) nx nu ncr nce S s' ∧ Built env m ocp ad tf lin s'.1 := by
  obtain ⟨P, q, int, e1, hP, hq, hI, hPv, hqv⟩ := updateCost_spec env m hN ocp ho.g tf lin s hs.P hs.q hs.int
  obtain ⟨qp2, e2, p2, q2, c2, a2, l2, u2, ka2, kl2, ku2⟩ := updateDyn_spec env m hm ocp ho.f.jac_rows ad hA tf lin
    ({ s.1 with P := P, q := q }, { s.2 with int := int }) ⟨hs.con.A, hs.con.l, hs.con.u⟩
  have hst2 : CrStored (nColloc m) nx nu ncr (qp2, { s.2 with int := int }) :=
    hs.cr.of_ent rfl fun r hr _ c => ka2 r hr c
  obtain ⟨qp3, cr, e3, p3, q3, c3, st3, a3, l3, u3, ka3, kl3, ku3⟩ := updateCr_spec env m ocp ho.cr.jac_rows tf lin
    (qp2, { s.2 with int := int }) c2 hst2
  have hce2 : CeStored (nColloc m) nx nu ncr nce S qp2.A := hs.ce.of_ent fun r hr c => ka2 r (by omega) c
  have hce3 : CeStored (nColloc m) nx nu ncr nce S qp3.A := hce2.of_ent fun r hr c => ka3 r (Or.inr hr) c
  obtain ⟨qp4, e4, p4, q4, c4, st4, a4, l4, u4, ka4, kl4, ku4⟩ := updateCe_spec m hN ocp ho.ce.jac_rows S tf lin hS
    (qp3, { s.2 with int := int, cr := cr }) c3 hce3
  have hPe : qp4.P = P := p4.trans (p3.trans p2)
  have hqe : qp4.q = q := q4.trans (q3.trans q2)
  have hvA : ∀ {A A' : Sp ℝ} {r : ℕ}, (∀ c, A.ent r c = A'.ent r c) → ∀ c, A.val r c = A'.val r c := by
    intro A A' r h c
    unfold Sp.val
    rw [h c]
  have hjq : (ocp.theta.jac (linEnd lin tf)).val 0 (1 + 2 * nx) = pd (fun e => ocp.theta.val e 0) (.q 0) (linEnd lin tf) := by
    have := ho.theta.jac_val (linEnd lin tf) 0 (.q 0)
    simpa [EArg.pos] using this
  have hjv : ∀ a, (ocp.theta.jac (linEnd lin tf)).val 0 a.pos = pd (fun e => ocp.theta.val e 0) a (linEnd lin tf) := fun a => by
    have := ho.theta.jac_val (linEnd lin tf) 0 a
    simpa using this
  have hhv : ∀ a b, (ocp.theta.hess (linEnd lin tf)).val a.pos b.pos = pd (pd (fun e => ocp.theta.val e 0) a) b (linEnd lin tf) := fun a b => by
    have := ho.theta.hess_val (linEnd lin tf) 0 a b
    simpa using this
  refine ⟨(qp4, { s.2 with int := int, cr := cr }), ?_, ⟨by rw [hPe]; exact hP, by rw [hqe]; exact hq, c4, hI, ?_, st4⟩, ?_⟩
  · unfold update
    rw [e1, Option.bind_some, e2, Option.bind_some, e3, Option.bind_some]
    exact e4
  · exact st3.of_ent rfl fun r _ hr c => ka4 r hr c
  · refine ⟨⟨by rw [hPe]; exact hP, by rw [hqe]; exact hq, c4.A, c4.l, c4.u⟩, ?_, ?_, ?_, ?_, ?_, ?_, ?_, l4, u4, ?_, ?_⟩
    · intro p k v
      have hr := row_le p k
      rw [hvA (ka4 _ (by omega)), hvA (ka3 _ (Or.inl hr)), a2]
      unfold ptCoef
      rw [dif_pos p.2]
      simp only [Fin.eta, ho.f.jac_val]
    · intro p k
      have hr := row_le p k
      rw [kl4 _ (by omega), kl3 _ (Or.inl hr), l2]
    · intro p k
      have hr := row_le p k
      rw [ku4 _ (by omega), ku3 _ (Or.inl hr), u2]
    · intro i k v
      have hr := row_le i k
      rw [hvA (ka4 _ (by omega)), a3]
      simp only [ho.cr.jac_val]
    · intro i k
      have hr := row_le i k
      rw [kl4 _ (by omega), l3]
    · intro i k
      have hr := row_le i k
      rw [ku4 _ (by omega), u3]
    · intro k v
      rw [a4]
      simp only [ho.ce.jac_val]
    · intro v w
      simp only [hPe, hPv, hjq, hhv]
    · intro v
      simp only [hqe, hqv, hjq, hjv]

theorem allocate_spec (env : Mesh.Env ℝ) (m : Mesh ℝ) (ocp : OCP ℝ nx nu 1 ncr nce) (h1 : ∀ p, (ocp.cr.jac p).rows = ncr)
    (h2 : ∀ p, (ocp.g.jac p).rows = 1) (S : ℕ → ℕ → Prop) (work : Work ℝ)
    (hcr : Sized 1 (ncr * nColloc m) (numVars (nColloc m) nx nu) work.cr) (hint : Sized 2 1 (numVars (nColloc m) nx nu) work.int) :
    ∃ s, allocate env m ocp work = some s ∧ QInv (nColloc m) nx nu ncr nce S s := by
  set z : Var (nColloc m) nx nu → ℝ := fun v => match v with
    | .tf => 1
    | _ => 0 with hz
  have hp : pointList env m (atNodes env m fun _ => (0 : Fin nx → ℝ)) (atNodes env m fun _ => (0 : Fin nu → ℝ)) =
      pointList env m (states z) (inputs z) := pointList_lin env m _ _ _ (fun i k => rfl) fun i k => rfl
  obtain ⟨cr, ecr, Hcr⟩ := mesh_eval_raw 1 env m ocp.cr (fun _ => h1) false z work.cr (Sized.usable' hcr le_rfl)
  obtain ⟨int, eint, Hint⟩ := mesh_integrate_raw 2 env m ocp.g (fun _ => h2) (fun _ => le_rfl) z
    { work.int with lambda := ⟨1, fun _ => 1⟩ } (hint.usable fun _ => rfl)
  have ecr' : meshEval 1 env m ocp.cr 0 1 (atNodes env m fun _ => (0 : Fin nx → ℝ)) (atNodes env m fun _ => (0 : Fin nu → ℝ)) false work.cr = some cr := by
    rw [← ecr]; unfold meshEval; rw [hp]
  have eint' : meshIntegrate 2 env m ocp.g 0 1 (atNodes env m fun _ => (0 : Fin nx → ℝ)) (atNodes env m fun _ => (0 : Fin nu → ℝ))
      { work.int with lambda := ⟨1, fun _ => 1⟩ } = some int := by
    rw [← eint]; unfold meshIntegrate; rw [hp]
  refine ⟨({ P := Sp.empty (nvar nx nu (nColloc m)) (nvar nx nu (nColloc m))
             q := ⟨nvar nx nu (nColloc m), fun _ => 0⟩
             A := Sp.empty (ncon nx ncr nce (nColloc m)) (nvar nx nu (nColloc m)) true
             l := ⟨ncon nx ncr nce (nColloc m), fun _ => .fin 0⟩
             u := ⟨ncon nx ncr nce (nColloc m), fun _ => .fin 0⟩ }, ⟨cr, int⟩), ?_,
    ⟨⟨rfl, rfl⟩, rfl, ⟨⟨rfl, rfl⟩, rfl, rfl⟩, ⟨Hint.sized, ?_, ?_⟩, ⟨Hcr.allocated, Hcr.sized, ?_⟩, ?_⟩⟩
  · unfold allocate
    simp only [ecr', eint']
  · change int.lambda.size = 1; rw [Hint.lambda_kept]
  · change int.lambda.val 0 = 1; rw [Hint.lambda_kept]
  · intro r c _ _ h; exact absurd rfl h
  · intro k v h; exact absurd rfl h

end Verif.OQP
