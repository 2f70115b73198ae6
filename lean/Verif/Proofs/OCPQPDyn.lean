import Verif.Proofs.OCPQPLayout
import Verif.Proofs.OCPNLPBounds

/-! # The rows of the dynamics -/

set_option linter.unusedSectionVars false

namespace Verif.OQP

open Verif.Mesh Verif.Sparse Verif.MeshFn Verif.NLP Verif.QP Verif.QPSpec

variable {N nx nu ncr nce : ℕ}

theorem blockAdds_ents {F : Type*} [Field F] (l : List (Blk F)) (A : Sp F) (h : ∀ b ∈ l, b.Fits A.rows A.cols) :
    ∃ B, blockAdds l A = some B ∧ SameShape A B ∧ (∀ i j, B.val i j = A.val i j + (l.map fun b => b.contrib i j).sum) ∧
      (∀ i j, (∀ b ∈ l, ¬(b.row0 ≤ i ∧ i < b.row0 + b.src.rows)) → B.ent i j = A.ent i j) ∧
      ∀ i j, A.ent i j ≠ none → B.ent i j ≠ none := by
  induction l generalizing A with
  | nil => exact ⟨A, rfl, ⟨rfl, rfl, rfl⟩, by simp, fun _ _ _ => rfl, fun _ _ h => h⟩
  | cons b l ih =>
    have hb := h b (by simp)
    obtain ⟨A1, hA1, hs1, hv1⟩ := blockAdd_spec A b.row0 b.col0 b.src b.scale b.upperOnly hb.1 hb.2
    obtain ⟨A1', hA1', -, he1⟩ := blockOp_spec (fun a b => a + b) A b.row0 b.col0 b.src b.scale b.upperOnly hb.1 hb.2
    have : A1' = A1 := Option.some.inj (hA1'.symm.trans hA1)
    subst this
    obtain ⟨B, hB, hs2, hv2, ho2, hk2⟩ := ih A1' (fun b' hb' => by
      rw [hs1.1, hs1.2.1]; exact h b' (List.mem_cons_of_mem _ hb'))
    refine ⟨B, ?_, hs1.trans hs2, fun i j => ?_, fun i j hij => ?_, fun i j hij => hk2 i j ?_⟩
    · rw [blockAdds, hA1]; exact hB
    · rw [hv2, hv1, List.map_cons, List.sum_cons, add_assoc]; rfl
    · rw [ho2 i j fun b' hb' => hij b' (List.mem_cons_of_mem _ hb'), he1, if_neg fun h => hij b (by simp) h.1.1]
    · rw [he1]
      split
      · split
        · exact Option.some_ne_none _
        · exact hij
      · exact hij

theorem contrib_all {F : Type*} [Field F] (row0 col0 : ℕ) (S : Sp F) (s : F) (R C : ℕ) :
    Blk.contrib ⟨row0, col0, S, s, false⟩ R C =
      ((loc row0 S.rows R).bind fun a => (loc col0 S.cols C).map fun b => s * S.val a b).getD 0 := by
  unfold Blk.contrib InBlock loc
  by_cases h1 : row0 ≤ R ∧ R < row0 + S.rows
  · by_cases h2 : col0 ≤ C ∧ C < col0 + S.cols
    · rw [if_pos ⟨⟨h1, h2⟩, by simp⟩, if_pos h1, if_pos h2]; rfl
    · rw [if_neg (fun h => h2 h.1.2), if_pos h1, if_neg h2]; rfl
  · rw [if_neg (fun h => h1 h.1.1), if_neg h1]; rfl

theorem setB_loc {F : Type*} (v : Vec (Ext F)) (b l : ℕ) (g : ℕ → Ext F) (h : b + l ≤ v.size) :
    setB v b l g = some ⟨v.size, fun r => ((loc b l r).map g).getD (v.val r)⟩ := by
  unfold setB
  rw [if_pos h]
  congr 2
  funext r
  exact segSet_loc b l g v.val r

/-- The `k`-th coordinates of the states, by node index. -/
def coordQ (z : QVar N nx nu → ℝ) (k : Fin nx) (j : ℕ) : ℝ := if h : j < N + 1 then z (.x ⟨j, h⟩ k) else 0
noncomputable def unitQ (v : QVar N nx nu) : QVar N nx nu → ℝ := fun w => if w = v then 1 else 0

theorem onDiag_iff (p q i : ℕ) (k : Fin nx) (hi : i < N + 1) (v : QVar N nx nu) :
    OnDiagonal (p * nx) (i * nx) nx (nx * q + k) v.pos ↔ p = q ∧ v = .x ⟨i, hi⟩ k := by
  constructor
  · rintro ⟨l, hl, h1, h2⟩
    have h3 : nx * q + (k : ℕ) = nx * p + l := by rw [h1, Nat.mul_comm]
    have hpq : q = p := mul_block k.2 (by omega) (by omega)
    subst hpq
    have hkl : (k : ℕ) = l := by omega
    refine ⟨rfl, QVar.pos_inj ?_⟩
    rw [h2, QVar.pos, hkl, Nat.mul_comm]
  · rintro ⟨rfl, rfl⟩
    exact ⟨k, k.2, by rw [Nat.mul_comm], by rw [QVar.pos, Nat.mul_comm]⟩

theorem coord_unit (v : QVar N nx nu) (k : Fin nx) (i : ℕ) (hi : i < N + 1) :
    coordQ (unitQ v) k i = if v = .x ⟨i, hi⟩ k then 1 else 0 := by
  unfold coordQ unitQ
  rw [dif_pos hi]
  by_cases h : v = .x ⟨i, hi⟩ k
  · rw [if_pos h.symm, if_pos h]
  · rw [if_neg (fun e => h e.symm), if_neg h]

/-- The inner loop over `j`. -/
theorem diag_spec (env : Mesh.Env ℝ) (K M i c : ℕ) (alpha : ℝ) (hi : i < K) (hc : c ≤ K + 1) (A : Sp ℝ)
    (hr : (M + i) * nx + nx ≤ A.rows) (hcol : (M + K) * nx + nx ≤ A.cols) :
    ∃ B, iter (dynDiag env nx K alpha M i) (List.range c) A = some B ∧ SameShape A B ∧
      (∀ r s, B.val r s = A.val r s - ∑ j ∈ Finset.range c,
        if OnDiagonal ((M + i) * nx) ((M + j) * nx) nx r s then alpha * (dusAt env K j i).getD 0 else 0) ∧
      ∀ r s, ¬((M + i) * nx ≤ r ∧ r < (M + i) * nx + nx) → B.ent r s = A.ent r s := by
  induction c with
  | zero => exact ⟨A, rfl, ⟨rfl, rfl, rfl⟩, by simp, fun _ _ _ => rfl⟩
  | succ c ih =>
    obtain ⟨B, hB, hs, hv, he⟩ := ih (by omega)
    have hD : dusAt env K c i = some (diffmatUnscaled env K ⟨c, by omega⟩ ⟨i, hi⟩) := by
      unfold dusAt; rw [dif_pos ⟨by omega, hi⟩]
    have hmul : (M + c) * nx ≤ (M + K) * nx := Nat.mul_le_mul_right _ (by omega)
    obtain ⟨C, hC, hs', hc'⟩ := identityOp_spec (fun a b => a - b) B ((M + i) * nx) ((M + c) * nx) nx
      (alpha * diffmatUnscaled env K ⟨c, by omega⟩ ⟨i, hi⟩) (by rw [hs.1]; exact hr) (by rw [hs.2.1]; omega)
    refine ⟨C, ?_, hs.trans hs', fun r s => ?_, fun r s h => ?_⟩
    · rw [List.range_succ, iter_append, hB, Option.bind_some]
      simp only [iter, dynDiag, hD]
      rw [show dconB + (M + i) * nx = (M + i) * nx by simp [dconB], hC]
    · rw [Finset.sum_range_succ, hD, Option.getD_some]
      unfold Sp.val at hv ⊢
      rw [hc']
      split
      · simp only [Option.getD_some, Sp.val]; rw [hv]; ring
      · rw [hv]; ring
    · rw [hc', if_neg, he r s h]
      rintro ⟨k, hk, rfl, -⟩
      exact h ⟨by omega, by omega⟩

/-- The row of the bracket. -/
noncomputable def adRow (ad : Option ((Fin nx → ℝ) → Sp ℝ)) (w : Fin nx → ℝ) (k : ℕ) : Arg nx nu → ℝ
  | .x l => match ad with
    | none => 0
    | some a => (a w).val k l
  | _ => 0

theorem dynBlocks_sum (p : Fin N) (tf : ℝ) (J : Sp ℝ) (hJ : J.rows = nx) (ad : Option ((Fin nx → ℝ) → Sp ℝ)) (hA : IsAd ad)
    (w : Fin nx → ℝ) (k : Fin nx) (v : QVar N nx nu) :
    ((dynBlocks nx nu N p tf J (ad.map fun a => a w)).map fun b => b.contrib (nx * p + k) v.pos).sum =
      tf * pullN p (fun a => J.val k a.pos) v + -tf / 2 * pullN p (adRow ad w k) v := by
  have hrow : loc (dconB + (p : ℕ) * nx) nx (nx * (p : ℕ) + k) = some (k : ℕ) := by
    rw [loc_row (b := 0) (c := dconB + (p : ℕ) * nx) (p := nx * (p : ℕ) + k) (p : ℕ) p k (by omega) rfl, if_pos rfl]
  have e1 : Blk.contrib ⟨dconB + (p : ℕ) * nx, xvarB + (p : ℕ) * nx, J.middleCols 1 nx, tf, false⟩ (nx * p + k) v.pos +
      Blk.contrib ⟨dconB + (p : ℕ) * nx, uvarB nx N + (p : ℕ) * nu, J.middleCols (1 + nx) nu, tf, false⟩ (nx * p + k) v.pos =
      tf * pullN p (fun a => J.val k a.pos) v := by
    rw [contrib_cols, contrib_cols, hJ, hrow, loc_xcol p (by omega), loc_ucol]
    cases v with
    | x j l =>
      by_cases h : (p : ℕ) = j
      · have h' : j = p.castSucc := Fin.ext h.symm
        simp [pullN, h', Arg.pos]
      · have h' : ¬ j = p.castSucc := fun e => h (by rw [e]; rfl)
        simp [pullN, h, h']
    | u j l =>
      by_cases h : (p : ℕ) = j
      · have h' : j = p := Fin.ext h.symm
        simp [pullN, h', Arg.pos, add_assoc]
      · have h' : ¬ j = p := fun e => h (by rw [e])
        simp [pullN, h, h']
  cases ad with
  | none =>
    have h0 : pullN p (adRow none w k) v = 0 := by cases v <;> simp [pullN, adRow]
    simp only [dynBlocks, Option.map_none, List.map_cons, List.map_nil, List.sum_cons, List.sum_nil, add_zero]
    rw [e1, h0]; ring
  | some a =>
    simp only [dynBlocks, Option.map_some, List.map_cons, List.map_nil, List.sum_cons, List.sum_nil, add_zero]
    rw [← add_assoc, e1]
    congr 1
    obtain ⟨hr, hc⟩ := hA a rfl w
    rw [contrib_all, hr, hc, hrow, loc_xcol p (by omega)]
    cases v with
    | x j l =>
      by_cases h : (p : ℕ) = j
      · have h' : j = p.castSucc := Fin.ext h.symm
        simp [pullN, h', adRow]
      · have h' : ¬ j = p.castSucc := fun e => h (by rw [e]; rfl)
        simp [pullN, h, h']
    | u j l => simp [pullN, adRow]

theorem dynBlocks_fits (p : Fin N) (tf : ℝ) (J : Sp ℝ) (hJ : J.rows = nx) (ad : Option ((Fin nx → ℝ) → Sp ℝ)) (hA : IsAd ad)
    (w : Fin nx → ℝ) : ∀ b ∈ dynBlocks nx nu N p tf J (ad.map fun a => a w),
      b.Fits (numC N nx ncr nce) (numV N nx nu) ∧ b.row0 = p * nx ∧ b.src.rows = nx := by
  have h1 : (p : ℕ) * nx + nx ≤ nx * N := by
    calc (p : ℕ) * nx + nx = nx * (p + 1) := by ring
      _ ≤ nx * N := Nat.mul_le_mul_left _ (by omega)
  have h2 : (p : ℕ) * nu + nu ≤ nu * N := by
    calc (p : ℕ) * nu + nu = nu * (p + 1) := by ring
      _ ≤ nu * N := Nat.mul_le_mul_left _ (by omega)
  have h3 : nx * (N + 1) = nx * N + nx := Nat.mul_succ _ _
  have hr : ∀ c0 c, (J.middleCols c0 c).rows = nx := fun _ _ => hJ
  have hc : ∀ c0 c, (J.middleCols c0 c).cols = c := fun _ _ => rfl
  intro b hb
  have key : ∀ b : Blk ℝ, (b = ⟨dconB + p * nx, xvarB + p * nx, J.middleCols 1 nx, tf, false⟩ ∨
      b = ⟨dconB + p * nx, uvarB nx N + p * nu, J.middleCols (1 + nx) nu, tf, false⟩) →
      b.Fits (numC N nx ncr nce) (numV N nx nu) ∧ b.row0 = p * nx ∧ b.src.rows = nx := by
    rintro b (rfl | rfl)
    · refine ⟨⟨?_, ?_⟩, by simp [dconB], hr _ _⟩
      · simp only [hr, numC, dconB]; omega
      · simp only [hc, numV, xvarB]; omega
    · refine ⟨⟨?_, ?_⟩, by simp [dconB], hr _ _⟩
      · simp only [hr, numC, dconB]; omega
      · simp only [hc, numV, uvarB, xvarL]; omega
  cases ad with
  | none =>
    simp only [dynBlocks, Option.map_none, List.mem_cons, List.not_mem_nil, or_false] at hb
    exact key b hb
  | some a =>
    simp only [dynBlocks, Option.map_some, List.mem_cons, List.not_mem_nil, or_false] at hb
    rcases hb with hb | hb | rfl
    · exact key b (.inl hb)
    · exact key b (.inr hb)
    · obtain ⟨e1, e2⟩ := hA a rfl w
      refine ⟨⟨?_, ?_⟩, by simp [dconB], e1⟩
      · simp only [e1, numC, dconB]; omega
      · simp only [e2, numV, xvarB]; omega

/-- The sizes of the constraints. -/
structure CSize (N nx nu ncr nce : ℕ) (qp : QPD ℝ) : Prop where
  A : qp.A.rows = numC N nx ncr nce ∧ qp.A.cols = numV N nx nu
  l : qp.l.size = numC N nx ncr nce
  u : qp.u.size = numC N nx ncr nce

/-- What changes in the rows of one collocation point. -/
structure RowDone (N nx nu ncr nce : ℕ) (rows : ℕ → Prop) (coef : ℕ → Fin nx → QVar N nx nu → ℝ) (bound : ℕ → Fin nx → ℝ) (qp qp' : QPD ℝ) :
    Prop where
  P : qp'.P = qp.P
  q : qp'.q = qp.q
  size : CSize N nx nu ncr nce qp'
  val : ∀ p, rows p → ∀ (k : Fin nx) (v : QVar N nx nu), qp'.A.val (nx * p + k) v.pos = qp.A.val (nx * p + k) v.pos + coef p k v
  ent : ∀ r, (∀ p, rows p → ¬(nx * p ≤ r ∧ r < nx * p + nx)) → ∀ s, qp'.A.ent r s = qp.A.ent r s
  l : ∀ p, rows p → ∀ k : Fin nx, qp'.l.val (nx * p + k) = .fin (bound p k)
  u : ∀ p, rows p → ∀ k : Fin nx, qp'.u.val (nx * p + k) = .fin (bound p k)
  l_else : ∀ r, (∀ p, rows p → ¬(nx * p ≤ r ∧ r < nx * p + nx)) → qp'.l.val r = qp.l.val r
  u_else : ∀ r, (∀ p, rows p → ¬(nx * p ≤ r ∧ r < nx * p + nx)) → qp'.u.val r = qp.u.val r

theorem RowDone.trans {rows rows' : ℕ → Prop} {coef bound} {q1 q2 q3 : QPD ℝ} (h : RowDone N nx nu ncr nce rows coef bound q1 q2)
    (h' : RowDone N nx nu ncr nce rows' coef bound q2 q3) (hd : ∀ p, rows p → ¬ rows' p) :
    RowDone N nx nu ncr nce (fun p => rows p ∨ rows' p) coef bound q1 q3 := by
  have out : ∀ p (k : Fin nx), rows p → ∀ p', rows' p' → ¬(nx * p' ≤ nx * p + k ∧ nx * p + k < nx * p' + nx) := by
    rintro p k hp p' hp' ⟨h1, h2⟩
    exact hd p hp (mul_block k.2 h1 h2 ▸ hp')
  have out' : ∀ p (k : Fin nx), rows' p → ∀ p', rows p' → ¬(nx * p' ≤ nx * p + k ∧ nx * p + k < nx * p' + nx) := by
    rintro p k hp p' hp' ⟨h1, h2⟩
    have := mul_block k.2 h1 h2
    subst this
    exact hd _ hp' hp
  refine ⟨h'.P.trans h.P, h'.q.trans h.q, h'.size, ?_, ?_, ?_, ?_, ?_, ?_⟩
  · rintro p (hp | hp) k v
    · have := h'.ent (nx * p + k) (out p k hp) v.pos
      rw [← h.val p hp]; unfold Sp.val; rw [this]
    · have := h.ent (nx * p + k) (out' p k hp) v.pos
      rw [h'.val p hp]; unfold Sp.val; rw [this]
  · intro r hr s
    rw [h'.ent r (fun p hp => hr p (.inr hp)), h.ent r fun p hp => hr p (.inl hp)]
  · rintro p (hp | hp) k
    · rw [h'.l_else _ (out p k hp), h.l p hp]
    · exact h'.l p hp k
  · rintro p (hp | hp) k
    · rw [h'.u_else _ (out p k hp), h.u p hp]
    · exact h'.u p hp k
  · intro r hr
    rw [h'.l_else r (fun p hp => hr p (.inr hp)), h.l_else r fun p hp => hr p (.inl hp)]
  · intro r hr
    rw [h'.u_else r (fun p hp => hr p (.inr hp)), h.u_else r fun p hp => hr p (.inl hp)]

theorem RowDone.weaken {rows rows' : ℕ → Prop} {coef coef' bound bound'} {q1 q2 : QPD ℝ} (h : RowDone N nx nu ncr nce rows coef bound q1 q2)
    (hr : ∀ p, rows p ↔ rows' p) (hc : ∀ p, rows p → ∀ k v, coef p k v = coef' p k v) (hb : ∀ p, rows p → ∀ k, bound p k = bound' p k) :
    RowDone N nx nu ncr nce rows' coef' bound' q1 q2 :=
  ⟨h.P, h.q, h.size, fun p hp k v => by rw [h.val p ((hr p).2 hp), hc p ((hr p).2 hp)],
    fun r hr' => h.ent r fun p hp => hr' p ((hr p).1 hp), fun p hp k => by rw [h.l p ((hr p).2 hp), hb p ((hr p).2 hp)],
    fun p hp k => by rw [h.u p ((hr p).2 hp), hb p ((hr p).2 hp)],
    fun r hr' => h.l_else r fun p hp => hr' p ((hr p).1 hp), fun r hr' => h.u_else r fun p hp => hr' p ((hr p).1 hp)⟩

/-- The coefficients that come from the derivatives at time `t`, for the point with index `p`. -/
noncomputable def ptCoef (ocp : OCP ℝ nx nu 1 ncr nce) (ad : Option ((Fin nx → ℝ) → Sp ℝ)) (tf : ℝ) (lin : Lin ℝ nx nu) (t : ℝ) (p : ℕ)
    (k : Fin nx) (v : QVar N nx nu) : ℝ :=
  if h : p < N then
    tf * pullN ⟨p, h⟩ (fun a => (ocp.f.jac (linPt lin t)).val k a.pos) v +
      -tf / 2 * pullN ⟨p, h⟩ (adRow ad (ocp.f.val (linPt lin t) + lin.dx t) k) v
  else 0

theorem dynRow_spec (env : Mesh.Env ℝ) (ocp : OCP ℝ nx nu 1 ncr nce) (hf : ∀ p, (ocp.f.jac p).rows = nx)
    (ad : Option ((Fin nx → ℝ) → Sp ℝ)) (hA : IsAd ad) (tf : ℝ) (lin : Lin ℝ nx nu) (K M i : ℕ) (alpha tau : ℝ) (hi : i < K) (hM : M + K ≤ N)
    (qp : QPD ℝ) (hq : CSize N nx nu ncr nce qp) :
    ∃ qp', dynRow env N ocp ad tf lin K alpha M (i, tau) qp = some qp' ∧
      RowDone N nx nu ncr nce (fun p => p = M + i)
        (fun p k v => ptCoef ocp ad tf lin (tf * tau) p k v - ∑ j ∈ Finset.range (K + 1), alpha * (dusAt env K j i).getD 0 * coordQ (unitQ v) k (M + j))
        (fun _ k => -tf * (ocp.f.val (linPt lin (tf * tau)) k - lin.dx (tf * tau) k)) qp qp' := by
  have ht : timeAt tf tau = tf * tau := by simp [timeAt]
  set t := tf * tau
  set J := ocp.f.jac (linPt lin t)
  set f := ocp.f.val (linPt lin t)
  obtain ⟨p, hp⟩ : ∃ p : Fin N, (p : ℕ) = M + i := ⟨⟨M + i, by omega⟩, rfl⟩
  have hfit := dynBlocks_fits (ncr := ncr) (nce := nce) (nu := nu) p tf J (hf _) ad hA (f + lin.dx t)
  have hrow : (M + i) * nx + nx ≤ nx * N := by
    calc (M + i) * nx + nx = nx * (M + i + 1) := by ring
      _ ≤ nx * N := Nat.mul_le_mul_left _ (by omega)
  have hcolK : (M + K) * nx + nx ≤ nx * (N + 1) := by
    calc (M + K) * nx + nx = nx * (M + K + 1) := by ring
      _ ≤ nx * (N + 1) := Nat.mul_le_mul_left _ (by omega)
  obtain ⟨A1, e1, s1, v1, o1, -⟩ := blockAdds_ents _ qp.A (fun b hb => by rw [hq.A.1, hq.A.2]; exact (hfit b hb).1)
  obtain ⟨A2, e2, s2, v2, o2⟩ := diag_spec (nx := nx) env K M i (K + 1) alpha hi le_rfl A1
    (by rw [s1.1, hq.A.1]; unfold numC; omega) (by rw [s1.2.1, hq.A.2]; unfold numV; omega)
  have hl := setB_loc qp.l (dconB + (M + i) * nx) nx (fun r => .fin (-tf * ext (fun k => f k - lin.dx t k) r))
    (by rw [hq.l]; unfold numC dconB; omega)
  have hu := setB_loc qp.u (dconB + (M + i) * nx) nx (fun r => ((loc (dconB + (M + i) * nx) nx (dconB + (M + i) * nx + r)).map
    fun r => Ext.fin (-tf * ext (fun k => f k - lin.dx t k) r)).getD (qp.l.val (dconB + (M + i) * nx + r)))
    (by rw [hq.u]; unfold numC dconB; omega)
  have hdb : dconB + (M + i) * nx = (M + i) * nx := by simp [dconB]
  have outs : ∀ r, (∀ p, p = M + i → ¬(nx * p ≤ r ∧ r < nx * p + nx)) → ¬((M + i) * nx ≤ r ∧ r < (M + i) * nx + nx) := by
    intro r hr h
    exact hr (M + i) rfl (by rw [Nat.mul_comm]; exact h)
  refine ⟨{ qp with A := A2
                    l := ⟨qp.l.size, fun r => ((loc (dconB + (M + i) * nx) nx r).map
                      fun r => Ext.fin (-tf * ext (fun k => f k - lin.dx t k) r)).getD (qp.l.val r)⟩
                    u := ⟨qp.u.size, fun r => ((loc (dconB + (M + i) * nx) nx r).map fun r =>
                      ((loc (dconB + (M + i) * nx) nx (dconB + (M + i) * nx + r)).map
                        fun r => Ext.fin (-tf * ext (fun k => f k - lin.dx t k) r)).getD
                          (qp.l.val (dconB + (M + i) * nx + r))).getD (qp.u.val r)⟩ }, ?_, ?_⟩
  · unfold dynRow
    simp only [ht]
    rw [show pt t (lin.x t) (lin.u t) = linPt lin t from rfl]
    rw [hp] at e1
    simp only [J, f] at e1 hl hu ⊢
    simp only [e1, e2, hl, hu]
  · have hlk : ∀ k : Fin nx, loc (dconB + (M + i) * nx) nx (nx * (M + i) + k) = some (k : ℕ) := fun k => by
      rw [loc_row (b := 0) (M + i) (M + i) k (by omega) (by simp [dconB]), if_pos rfl]
    have hlk' : ∀ k : Fin nx, loc (dconB + (M + i) * nx) nx (dconB + (M + i) * nx + k) = some (k : ℕ) := fun k => loc_some rfl k.2
    refine ⟨rfl, rfl, ⟨⟨s2.1.trans (s1.1.trans hq.A.1), s2.2.1.trans (s1.2.1.trans hq.A.2)⟩, hq.l, hq.u⟩, ?_, ?_, ?_, ?_, ?_, ?_⟩
    · rintro _ rfl k v
      rw [v2, v1]
      have hsum := dynBlocks_sum p tf J (hf _) ad hA (f + lin.dx t) k v
      rw [hp] at hsum ⊢
      rw [hsum, add_sub_assoc]
      congr 1
      unfold ptCoef
      rw [dif_pos (by omega : M + i < N)]
      congr 1
      · have : (⟨M + i, by omega⟩ : Fin N) = p := Fin.ext hp.symm
        rw [this]
      · refine Finset.sum_congr rfl fun j hj => ?_
        have hj' : M + j < N + 1 := by have := Finset.mem_range.1 hj; omega
        rw [coord_unit v k (M + j) hj']
        by_cases h : v = .x ⟨M + j, hj'⟩ k
        · rw [if_pos ((onDiag_iff _ _ _ k hj' v).2 ⟨rfl, h⟩), if_pos h, mul_one]
        · rw [if_neg (fun e => h ((onDiag_iff _ _ _ k hj' v).1 e).2), if_neg h, mul_zero]
    · intro r hr s
      change A2.ent r s = _
      rw [o2 r s (outs r hr), o1 r s]
      intro b hb
      obtain ⟨-, h1, h2⟩ := hfit b hb
      rw [h1, h2, hp]; exact outs r hr
    · rintro _ rfl k
      simp only [hlk, Option.map_some, Option.getD_some, ext, Fin.is_lt, dif_pos, Fin.eta]
    · rintro _ rfl k
      simp only [hlk, hlk', Option.map_some, Option.getD_some, ext, Fin.is_lt, dif_pos, Fin.eta]
    · intro r hr
      have := outs r hr
      simp only [loc_none (s := dconB + (M + i) * nx) (l := nx) (p := r) (by rw [hdb]; omega), Option.map_none, Option.getD_none]
    · intro r hr
      have := outs r hr
      simp only [loc_none (s := dconB + (M + i) * nx) (l := nx) (p := r) (by rw [hdb]; omega), Option.map_none, Option.getD_none]

theorem nodes_zip (env : Mesh.Env ℝ) (m : Mesh ℝ) (ival : ℕ) (v : Ival ℝ) (hv : m[ival]? = some v) :
    (List.range v.K).zip (intervalNodes env m ival) =
      (List.range v.K).map fun i => (i, (localNodes env (v, tauf m ival)).getD i 0) := by
  unfold intervalNodes
  rw [hv]
  apply List.ext_getElem
  · simp
  · intro i h1 h2
    simp only [List.length_map, List.length_range] at h2
    simp only [List.getElem_zip, List.getElem_range, List.getElem_map, Prod.mk.injEq, true_and]
    rw [List.getD_eq_getElem?_getD, List.getElem?_eq_getElem (by simpa [localNodes] using h2)]
    simp [localNodes, nodeExt, h2]

theorem rows_spec (env : Mesh.Env ℝ) (ocp : OCP ℝ nx nu 1 ncr nce) (hf : ∀ p, (ocp.f.jac p).rows = nx)
    (ad : Option ((Fin nx → ℝ) → Sp ℝ)) (hA : IsAd ad) (tf : ℝ) (lin : Lin ℝ nx nu) (K M : ℕ) (alpha : ℝ) (tau : ℕ → ℝ) (hM : M + K ≤ N) (c : ℕ)
    (hc : c ≤ K) (qp : QPD ℝ) (hq : CSize N nx nu ncr nce qp) :
    ∃ qp', iter (dynRow env N ocp ad tf lin K alpha M) ((List.range c).map fun i => (i, tau i)) qp = some qp' ∧
      RowDone N nx nu ncr nce (fun p => M ≤ p ∧ p < M + c)
        (fun p k v => ptCoef ocp ad tf lin (tf * tau (p - M)) p k v -
          ∑ j ∈ Finset.range (K + 1), alpha * (dusAt env K j (p - M)).getD 0 * coordQ (unitQ v) k (M + j))
        (fun p k => -tf * (ocp.f.val (linPt lin (tf * tau (p - M))) k - lin.dx (tf * tau (p - M)) k)) qp qp' := by
  induction c with
  | zero =>
    refine ⟨qp, rfl, rfl, rfl, hq, ?_, fun _ _ _ => rfl, ?_, ?_, fun _ _ => rfl, fun _ _ => rfl⟩ <;>
    · intro p hp; omega
  | succ c ih =>
    obtain ⟨q1, e1, h1⟩ := ih (by omega)
    obtain ⟨q2, e2, h2⟩ := dynRow_spec env ocp hf ad hA tf lin K M c alpha (tau c) (by omega) hM q1 h1.size
    refine ⟨q2, ?_, ?_⟩
    · rw [List.range_succ, List.map_append, iter_append, e1, Option.bind_some]
      simp only [List.map_cons, List.map_nil, iter, e2]
    · have h2' := h2.weaken (rows' := fun p => p = M + c)
        (coef' := fun p k v => ptCoef ocp ad tf lin (tf * tau (p - M)) p k v -
          ∑ j ∈ Finset.range (K + 1), alpha * (dusAt env K j (p - M)).getD 0 * coordQ (unitQ v) k (M + j))
        (bound' := fun p k => -tf * (ocp.f.val (linPt lin (tf * tau (p - M))) k - lin.dx (tf * tau (p - M)) k))
        (fun _ => Iff.rfl) (by rintro _ rfl k v; simp only [Nat.add_sub_cancel_left])
        (by rintro _ rfl k; simp only [Nat.add_sub_cancel_left])
      exact (h1.trans h2' (by rintro p hp rfl; omega)).weaken (fun p => by constructor <;> intro h <;> omega)
        (fun _ _ _ _ => rfl) fun _ _ _ => rfl

/-- The coefficients of the rows from point `M` on, where the intervals `r` begin. -/
noncomputable def dynCoef (env : Mesh.Env ℝ) (ocp : OCP ℝ nx nu 1 ncr nce) (ad : Option ((Fin nx → ℝ) → Sp ℝ)) (tf : ℝ) (lin : Lin ℝ nx nu)
    (r : List (Ival ℝ × ℝ)) (M p : ℕ) (k : Fin nx) (v : QVar N nx nu) : ℝ :=
  ptCoef ocp ad tf lin (tf * (r.flatMap (localNodes env)).getD (p - M) 0) p k v -
    slope env r (fun j => coordQ (unitQ v) k (M + j)) (p - M)

/-- The bounds of these rows. -/
noncomputable def dynBound (env : Mesh.Env ℝ) (ocp : OCP ℝ nx nu 1 ncr nce) (tf : ℝ) (lin : Lin ℝ nx nu)
    (r : List (Ival ℝ × ℝ)) (M p : ℕ) (k : Fin nx) : ℝ :=
  -tf * (ocp.f.val (linPt lin (tf * (r.flatMap (localNodes env)).getD (p - M) 0)) k -
    lin.dx (tf * (r.flatMap (localNodes env)).getD (p - M) 0) k)

theorem ivals_spec (env : Mesh.Env ℝ) (m : Mesh ℝ) (ocp : OCP ℝ nx nu 1 ncr nce) (hf : ∀ p, (ocp.f.jac p).rows = nx)
    (ad : Option ((Fin nx → ℝ) → Sp ℝ)) (hA : IsAd ad) (tf : ℝ) (lin : Lin ℝ nx nu) (r : List (Ival ℝ × ℝ)) (ival M : ℕ)
    (hr : (spans 1 m).drop ival = r) (hM : M + (r.map fun p => p.1.K).sum = nColloc m) (qp : QPD ℝ)
    (hq : CSize (nColloc m) nx nu ncr nce qp) :
    ∃ qp', dynIvals env m ocp ad tf lin (List.range' ival r.length) M qp = some qp' ∧
      RowDone (nColloc m) nx nu ncr nce (fun p => M ≤ p ∧ p < nColloc m) (dynCoef env ocp ad tf lin r M) (dynBound env ocp tf lin r M)
        qp qp' := by
  induction r generalizing ival M qp with
  | nil =>
    simp only [List.map_nil, List.sum_nil, Nat.add_zero] at hM
    refine ⟨qp, rfl, rfl, rfl, hq, ?_, fun _ _ _ => rfl, ?_, ?_, fun _ _ => rfl, fun _ _ => rfl⟩ <;>
    · intro p hp; omega
  | cons a r ih =>
    obtain ⟨w, b⟩ := a
    simp only [List.map_cons, List.sum_cons] at hM
    have hget : (spans 1 m)[ival]? = some (w, b) := by
      have := List.getElem?_drop (xs := spans 1 m) (i := ival) (j := 0)
      rw [hr] at this
      simpa using this.symm
    rw [spans_getElem?] at hget
    obtain ⟨w', hw, hwb⟩ := Option.map_eq_some_iff.1 hget
    simp only [Prod.mk.injEq] at hwb
    obtain ⟨rfl, rfl⟩ := hwb
    have hdrop : (spans 1 m).drop (ival + 1) = r := by
      rw [← List.drop_drop, hr]; rfl
    have hlen : (localNodes env (w', tauf m ival)).length = w'.K := by simp [localNodes]
    obtain ⟨q1, e1, h1⟩ := rows_spec env ocp hf ad hA tf lin w'.K M (diffmatScale w'.tau0 (tauf m ival))
      (fun i => (localNodes env (w', tauf m ival)).getD i 0) (by omega) w'.K le_rfl qp hq
    obtain ⟨q2, e2, h2⟩ := ih (ival + 1) (M + w'.K) hdrop (by omega) q1 h1.size
    refine ⟨q2, ?_, ?_⟩
    · rw [List.length_cons, List.range'_succ, dynIvals, hw]
      simp only [nodes_zip env m ival w' hw, e1]
      exact e2
    · have h1' := h1.weaken (rows' := fun p => M ≤ p ∧ p < M + w'.K)
        (coef' := dynCoef env ocp ad tf lin ((w', tauf m ival) :: r) M) (bound' := dynBound env ocp tf lin ((w', tauf m ival) :: r) M)
        (fun _ => Iff.rfl) (by
          intro p hp k v
          have hp' : p - M < w'.K := by omega
          unfold dynCoef
          rw [List.flatMap_cons, getD_append_left _ _ _ (by omega), MeshFn.slope, dif_pos hp', Finset.sum_range]
          congr 1
          refine Finset.sum_congr rfl fun j _ => ?_
          unfold dusAt
          rw [dif_pos ⟨j.2, hp'⟩, Option.getD_some, diffmat, diffmatScale]
          ring) (by
          intro p hp k
          unfold dynBound
          rw [List.flatMap_cons, getD_append_left _ _ _ (by omega)])
      have h2' := h2.weaken (rows' := fun p => M + w'.K ≤ p ∧ p < nColloc m)
        (coef' := dynCoef env ocp ad tf lin ((w', tauf m ival) :: r) M) (bound' := dynBound env ocp tf lin ((w', tauf m ival) :: r) M)
        (fun _ => Iff.rfl) (by
          intro p hp k v
          unfold dynCoef
          rw [List.flatMap_cons, getD_append_right' _ _ _ (by omega), hlen, MeshFn.slope, dif_neg (by omega), Nat.sub_sub]
          simp only [Nat.add_assoc]) (by
          intro p hp k
          unfold dynBound
          rw [List.flatMap_cons, getD_append_right' _ _ _ (by omega), hlen, Nat.sub_sub])
      exact (h1'.trans h2' (by intro p hp h; omega)).weaken (fun p => by constructor <;> intro h <;> omega)
        (fun _ _ _ _ => rfl) fun _ _ _ => rfl

/-- Whatever the constraints were, `update_dyn` succeeds, rewrites the rows of the dynamics and touches nothing else. -/
theorem updateDyn_spec (env : Mesh.Env ℝ) (m : Mesh ℝ) (hm : m ≠ []) (ocp : OCP ℝ nx nu 1 ncr nce) (hf : ∀ p, (ocp.f.jac p).rows = nx)
    (ad : Option ((Fin nx → ℝ) → Sp ℝ)) (hA : IsAd ad) (tf : ℝ) (lin : Lin ℝ nx nu) (s : QPD ℝ × Work ℝ)
    (hs : CSize (nColloc m) nx nu ncr nce s.1) :
    ∃ qp, updateDyn env m ocp ad tf lin s = some (qp, s.2) ∧ qp.P = s.1.P ∧ qp.q = s.1.q ∧ CSize (nColloc m) nx nu ncr nce qp ∧
      (∀ (p : Fin (nColloc m)) (k : Fin nx) (v : QVar (nColloc m) nx nu), qp.A.val (nx * p + k) v.pos =
        ptCoef ocp ad tf lin (tf * tauAt env m p) p k v - slope env (spans 1 m) (coordQ (unitQ v) k) p) ∧
      (∀ (p : Fin (nColloc m)) (k : Fin nx), qp.l.val (nx * p + k) =
        .fin (-tf * (ocp.f.val (linPt lin (tf * tauAt env m p)) k - lin.dx (tf * tauAt env m p) k))) ∧
      (∀ (p : Fin (nColloc m)) (k : Fin nx), qp.u.val (nx * p + k) =
        .fin (-tf * (ocp.f.val (linPt lin (tf * tauAt env m p)) k - lin.dx (tf * tauAt env m p) k))) ∧
      (∀ r, nx * nColloc m ≤ r → ∀ c, qp.A.ent r c = s.1.A.ent r c) ∧
      (∀ r, nx * nColloc m ≤ r → qp.l.val r = s.1.l.val r) ∧ (∀ r, nx * nColloc m ≤ r → qp.u.val r = s.1.u.val r) := by
  have hz : zeroRows s.1.A dconB (dconL nx (nColloc m)) = some { s.1.A with
      ent := fun i j => if dconB ≤ i ∧ i < dconB + dconL nx (nColloc m) then (s.1.A.ent i j).map fun _ => 0 else s.1.A.ent i j } := by
    unfold zeroRows
    rw [if_pos (by rw [hs.A.1]; unfold dconB dconL numC; omega)]
  have hsum : 0 + ((spans 1 m).map fun p => p.1.K).sum = nColloc m := by
    rw [nColloc_eq, Nat.zero_add]
    unfold points
    conv_rhs => rw [← spans_fst 1 m]
    rw [List.map_map]; rfl
  obtain ⟨qp, e, h⟩ := ivals_spec env m ocp hf ad hA tf lin (spans 1 m) 0 0 rfl hsum { s.1 with A := { s.1.A with
      ent := fun i j => if dconB ≤ i ∧ i < dconB + dconL nx (nColloc m) then (s.1.A.ent i j).map fun _ => 0 else s.1.A.ent i j } } ⟨hs.A, hs.l, hs.u⟩
  have htau : ∀ p : Fin (nColloc m), ((spans 1 m).flatMap (localNodes env)).getD p 0 = tauAt env m p := by
    intro p
    unfold tauAt
    rw [allNodes_eq env m hm, getD_append_left]
    rw [flatMap_length_localNodes]; exact lt_of_lt_of_eq p.2 (nColloc_eq m)
  have out : ∀ r, nx * nColloc m ≤ r → ∀ p, 0 ≤ p ∧ p < nColloc m → ¬(nx * p ≤ r ∧ r < nx * p + nx) := by
    rintro r hr p ⟨-, hp⟩ ⟨-, h⟩
    have : nx * p + nx ≤ nx * nColloc m := by rw [← Nat.mul_succ]; exact Nat.mul_le_mul_left _ hp
    omega
  refine ⟨qp, ?_, h.P, h.q, h.size, fun p k v => ?_, fun p k => ?_, fun p k => ?_, fun r hr c => ?_, fun r hr => ?_, fun r hr => ?_⟩
  · unfold updateDyn
    rw [hz]
    rw [spans_length, ← List.range_eq_range'] at e
    simp only [e]
  · rw [h.val p ⟨Nat.zero_le _, p.2⟩]
    have h0 : Sp.val { s.1.A with
        ent := fun i j => if dconB ≤ i ∧ i < dconB + dconL nx (nColloc m) then (s.1.A.ent i j).map fun _ => 0 else s.1.A.ent i j }
        (nx * p + k) v.pos = 0 := by
      have := row_le p k
      unfold Sp.val dconB dconL
      simp only
      rw [if_pos ⟨by omega, by omega⟩]
      cases s.1.A.ent (nx * p + k) v.pos <;> rfl
    simp only at h0
    simp only [h0, zero_add, dynCoef, Nat.sub_zero, htau]
  · rw [h.l p ⟨Nat.zero_le _, p.2⟩, dynBound, Nat.sub_zero, htau]
  · rw [h.u p ⟨Nat.zero_le _, p.2⟩, dynBound, Nat.sub_zero, htau]
  · rw [h.ent r (out r hr)]
    simp only
    rw [if_neg (by unfold dconB dconL; omega)]
  · exact h.l_else r (out r hr)
  · exact h.u_else r (out r hr)

end Verif.OQP
