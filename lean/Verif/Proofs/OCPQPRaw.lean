import Verif.Proofs.OCPQPCost

/-! # The whole conversion, in terms of the records of the problem -/

set_option linter.unusedSectionVars false

namespace Verif.OQP

open Verif.Mesh Verif.Sparse Verif.MeshFn Verif.NLP Verif.QP Verif.QPSpec

variable {N nx nu ncr nce : ℕ}

/-- Every number of the program, in terms of the records of the problem. -/
structure BuiltRaw (env : Mesh.Env ℝ) (m : Mesh ℝ) (ocp : OCP ℝ nx nu 1 ncr nce) (ad : Option ((Fin nx → ℝ) → Sp ℝ)) (tf : ℝ)
    (lin : Lin ℝ nx nu) (qp : QPD ℝ) : Prop where
  size : HasSize qp (numV (nColloc m) nx nu) (numC (nColloc m) nx ncr nce)
  dyn : ∀ (p : Fin (nColloc m)) (k : Fin nx) (v : QVar (nColloc m) nx nu), qp.A.val (nx * p + k) v.pos =
    tf * pullN p (fun a => (ocp.f.jac (linPt lin (tf * tauAt env m p))).val k a.pos) v +
      -tf / 2 * pullN p (adRow ad (ocp.f.val (linPt lin (tf * tauAt env m p)) + lin.dx (tf * tauAt env m p)) k) v -
      slope env (spans 1 m) (coordQ (unitQ v) k) p
  dynl : ∀ (p : Fin (nColloc m)) (k : Fin nx), qp.l.val (nx * p + k) =
    .fin (-tf * (ocp.f.val (linPt lin (tf * tauAt env m p)) k - lin.dx (tf * tauAt env m p) k))
  dynu : ∀ (p : Fin (nColloc m)) (k : Fin nx), qp.u.val (nx * p + k) =
    .fin (-tf * (ocp.f.val (linPt lin (tf * tauAt env m p)) k - lin.dx (tf * tauAt env m p) k))
  cr : ∀ (i : Fin (nColloc m)) (k : Fin ncr) (v : QVar (nColloc m) nx nu), qp.A.val (nx * nColloc m + (ncr * i + k)) v.pos =
    pullN i (fun a => (ocp.cr.jac (linPt lin (tf * tauAt env m i))).val k a.pos) v
  crl : ∀ (i : Fin (nColloc m)) (k : Fin ncr), qp.l.val (nx * nColloc m + (ncr * i + k)) =
    extSub (ocp.crl k) (ocp.cr.val (linPt lin (tf * tauAt env m i)) k)
  cru : ∀ (i : Fin (nColloc m)) (k : Fin ncr), qp.u.val (nx * nColloc m + (ncr * i + k)) =
    extSub (ocp.cru k) (ocp.cr.val (linPt lin (tf * tauAt env m i)) k)
  ce : ∀ (k : Fin nce) (v : QVar (nColloc m) nx nu), qp.A.val (nx * nColloc m + ncr * nColloc m + k) v.pos =
    pullQ (fun a => (ocp.ce.jac (linEnd lin tf)).val k a.pos) v
  cel : ∀ k : Fin nce, qp.l.val (nx * nColloc m + ncr * nColloc m + k) = extSub (ocp.cel k) (ocp.ce.val (linEnd lin tf) k)
  ceu : ∀ k : Fin nce, qp.u.val (nx * nColloc m + ncr * nColloc m + k) = extSub (ocp.ceu k) (ocp.ce.val (linEnd lin tf) k)
  P : ∀ v w : QVar (nColloc m) nx nu, qp.P.val v.pos w.pos = if v.pos ≤ w.pos then
    (ocp.theta.jac (linEnd lin tf)).val 0 (1 + 2 * nx) * (∑ i : Fin (nColloc m), wAt env m i * (tf *
      pullN i (fun a => pullN i (fun b => (ocp.g.hess (linPt lin (tf * tauAt env m i))).val a.pos b.pos) w) v)) +
      1 / 2 * pullQQ (fun a b => (ocp.theta.hess (linEnd lin tf)).val a.pos b.pos) v w else 0
  q : ∀ v : QVar (nColloc m) nx nu, qp.q.val v.pos =
    (ocp.theta.jac (linEnd lin tf)).val 0 (1 + 2 * nx) * (∑ i : Fin (nColloc m), wAt env m i * (tf *
      pullN i (fun a => (ocp.g.jac (linPt lin (tf * tauAt env m i))).val 0 a.pos) v)) +
      pullQ (fun a => (ocp.theta.jac (linEnd lin tf)).val 0 a.pos) v

/-- The Jacobians have the right numbers of rows. -/
structure HasRows (ocp : OCP ℝ nx nu 1 ncr nce) : Prop where
  f : ∀ p, (ocp.f.jac p).rows = nx
  g : ∀ p, (ocp.g.jac p).rows = 1
  cr : ∀ p, (ocp.cr.jac p).rows = ncr
  ce : ∀ p, (ocp.ce.jac p).rows = nce

theorem update_raw (env : Mesh.Env ℝ) (m : Mesh ℝ) (hm : m ≠ []) (hN : 1 ≤ nColloc m) (ocp : OCP ℝ nx nu 1 ncr nce) (ho : HasRows ocp)
    (ad : Option ((Fin nx → ℝ) → Sp ℝ)) (hA : IsAd ad) (tf : ℝ) (lin : Lin ℝ nx nu) (S : ℕ → ℕ → Prop)
    (hS : ∀ (k : Fin nce) c, 1 ≤ c → c < 1 + 2 * nx → (S k c ↔ (ocp.ce.jac (linEnd lin tf)).ent k c ≠ none))
    (s : QPD ℝ × Work ℝ) (hs : QInv (nColloc m) nx nu ncr nce S s) :
    ∃ s', update env m ocp ad tf lin s = some s' ∧ QInv (nColloc m) nx nu ncr nce S s' ∧ BuiltRaw env m ocp ad tf lin s'.1 := by
  obtain ⟨P, q, int, e1, hP, hq, hI, hPv, hqv⟩ := updateCost_raw env m hN ocp ho.g tf lin s hs.P hs.q hs.int
  obtain ⟨qp2, e2, p2, q2, c2, a2, l2, u2, ka2, kl2, ku2⟩ := updateDyn_spec env m hm ocp ho.f ad hA tf lin
    ({ s.1 with P := P, q := q }, { s.2 with int := int }) ⟨hs.con.A, hs.con.l, hs.con.u⟩
  have hst2 : CrStored (nColloc m) nx nu ncr (qp2, { s.2 with int := int }) :=
    hs.cr.of_ent rfl fun r hr _ c => ka2 r hr c
  obtain ⟨qp3, cr, e3, p3, q3, c3, st3, a3, l3, u3, ka3, kl3, ku3⟩ := updateCr_spec env m ocp ho.cr tf lin
    (qp2, { s.2 with int := int }) c2 hst2
  have hce2 : CeStored (nColloc m) nx nu ncr nce S qp2.A := hs.ce.of_ent fun r hr c => ka2 r (by omega) c
  have hce3 : CeStored (nColloc m) nx nu ncr nce S qp3.A := hce2.of_ent fun r hr c => ka3 r (Or.inr hr) c
  obtain ⟨qp4, e4, p4, q4, c4, st4, a4, l4, u4, ka4, kl4, ku4⟩ := updateCe_spec m hN ocp ho.ce S tf lin hS
    (qp3, { s.2 with int := int, cr := cr }) c3 hce3
  have hPe : qp4.P = P := p4.trans (p3.trans p2)
  have hqe : qp4.q = q := q4.trans (q3.trans q2)
  have hvA : ∀ {A A' : Sp ℝ} {r : ℕ}, (∀ c, A.ent r c = A'.ent r c) → ∀ c, A.val r c = A'.val r c := by
    intro A A' r h c
    unfold Sp.val
    rw [h c]
  refine ⟨(qp4, { s.2 with int := int, cr := cr }), ?_, ⟨by rw [hPe]; exact hP, by rw [hqe]; exact hq, c4, hI, ?_, st4⟩, ?_⟩
  · unfold update
    rw [e1, Option.bind_some, e2, Option.bind_some, e3, Option.bind_some]
    exact e4
  · exact st3.of_ent rfl fun r _ hr c => ka4 r hr c
  · refine ⟨⟨by rw [hPe]; exact hP, by rw [hqe]; exact hq, c4.A, c4.l, c4.u⟩, ?_, ?_, ?_, ?_, ?_, ?_, a4, l4, u4, ?_, ?_⟩
    · intro p k v
      have hr := row_le p k
      rw [hvA (ka4 _ (by omega)), hvA (ka3 _ (Or.inl hr)), a2]
      unfold ptCoef
      rw [dif_pos p.2]
    · intro p k
      have hr := row_le p k
      rw [kl4 _ (by omega), kl3 _ (Or.inl hr), l2]
    · intro p k
      have hr := row_le p k
      rw [ku4 _ (by omega), ku3 _ (Or.inl hr), u2]
    · intro i k v
      have hr := row_le i k
      rw [hvA (ka4 _ (by omega)), a3]
    · intro i k
      have hr := row_le i k
      rw [kl4 _ (by omega), l3]
    · intro i k
      have hr := row_le i k
      rw [ku4 _ (by omega), u3]
    · intro v w
      simp only [hPe, hPv]
    · intro v
      simp only [hqe, hqv]

end Verif.OQP
