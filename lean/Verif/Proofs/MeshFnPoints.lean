import Verif.Proofs.MeshFnDeriv
import Verif.Proofs.MeshNodes
import Verif.Proofs.Mesh

/-! # Functions over a mesh: the loops over the points -/

set_option linter.unusedSectionVars false

namespace Verif.MeshFn

open Verif.Mesh Verif.Sparse

variable {nx nu : ℕ}

theorem sum_flatMap_range {F α : Type*} [AddCommMonoid F] (n : ℕ) (L : ℕ → List α) (f : α → F) :
    (((List.range n).flatMap L).map f).sum = ∑ j : Fin n, ((L j).map f).sum := by
  induction n with
  | zero => simp
  | succ n ih =>
    rw [List.range_succ, List.flatMap_append, List.map_append, List.sum_append, ih, Fin.sum_univ_castSucc]
    simp

theorem addSeg_eq {F : Type*} [Field F] (v : Vec F) (r0 n : ℕ) (g : ℕ → F) (h : r0 + n ≤ v.size) :
    v.addSeg r0 n g = some ⟨v.size, fun r => v.val r + if r0 ≤ r ∧ r < r0 + n then g (r - r0) else 0⟩ := by
  unfold Vec.addSeg
  rw [if_pos h]
  congr 2
  funext r
  split <;> simp

theorem setSeg_eq {F : Type*} [Field F] (v : Vec F) (r0 n : ℕ) (g : ℕ → F) (h : r0 + n ≤ v.size) :
    v.setSeg r0 n g = some ⟨v.size, fun r => if r0 ≤ r ∧ r < r0 + n then g (r - r0) else v.val r⟩ := by
  unfold Vec.setSeg
  rw [if_pos h]

theorem foldl_add {F α : Type*} [AddCommMonoid F] (φ : α → ℕ → F) (l : List α) (v : ℕ → F) (r : ℕ) :
    l.foldl (fun v a => fun r => v r + φ a r) v r = v r + (l.map fun a => φ a r).sum := by
  induction l generalizing v with
  | nil => simp
  | cons a l ih => rw [List.foldl_cons, ih, List.map_cons, List.sum_cons, add_assoc]

theorem nodes_length (env : Env ℝ) (m : Mesh ℝ) : nColloc m ≤ (allNodes env m).length := by
  by_cases hm : m = []
  · subst hm; simp [nColloc]
  · rw [allNodes_eq env m hm, List.length_append, flatMap_length_localNodes, nColloc_eq]; simp [points]

theorem weights_length (env : Env ℝ) (m : Mesh ℝ) : nColloc m ≤ (allWeights env m).length := by
  by_cases hm : m = []
  · subst hm; simp [nColloc]
  · rw [allWeights_eq env m hm, List.length_append, flatMap_length_localWeights, nColloc_eq]; simp [points]

/-- The data of point `i`. -/
noncomputable def pointData (env : Env ℝ) (m : Mesh ℝ) (z : Var (nColloc m) nx nu → ℝ) (i : Fin (nColloc m)) :
    ℕ × ℝ × ℝ × (Fin nx → ℝ) × (Fin nu → ℝ) :=
  (i, tauAt env m i, wAt env m i, (fun k => z (.x i.castSucc k)), fun k => z (.u i k))

theorem pointList_eq (env : Env ℝ) (m : Mesh ℝ) (z : Var (nColloc m) nx nu → ℝ) :
    pointList env m (states z) (inputs z) = List.ofFn (pointData env m z) := by
  have h1 := nodes_length env m
  have h2 := weights_length env m
  unfold pointList
  apply List.ext_getElem
  · simp [states, inputs]; omega
  · intro i hi hi'
    simp only [List.length_ofFn] at hi'
    have e1 : (allNodes env m)[i]'(by omega) = tauAt env m i := by
      simp only [tauAt, List.getD_eq_getElem?_getD]; rw [List.getElem?_eq_getElem (by omega)]; rfl
    have e2 : (allWeights env m)[i]'(by omega) = wAt env m i := by
      simp only [wAt, List.getD_eq_getElem?_getD]; rw [List.getElem?_eq_getElem (by omega)]; rfl
    simp only [List.getElem_zip, List.getElem_range, List.getElem_ofFn, states, inputs, pointData, e1, e2]
    rfl

theorem pt_eq {N : ℕ} (tau : ℝ) (i : Fin N) (z : Var N nx nu → ℝ) :
    pt (z .t0 + (z .tf - z .t0) * tau) (fun k => z (.x i.castSucc k)) (fun k => z (.u i k)) = nodePt tau i z := by
  funext a
  cases a <;> rfl

theorem row_fits {n N : ℕ} (i : Fin N) : n * i + n ≤ n * N := by
  rw [← Nat.mul_succ]; exact Nat.mul_le_mul_left _ (by omega)

/-! ### mesh_eval -/

theorem evalPoint_does {nf d : ℕ} {fn : Fn ℝ nx nu nf} (hfn : 1 ≤ d → ∀ p, (fn.jac p).rows = nf) (env : Env ℝ) (m : Mesh ℝ)
    (z : Var (nColloc m) nx nu → ℝ) (scale : Bool) (lam : Vec ℝ) (i : Fin (nColloc m)) :
    Does d (nf * nColloc m) (numVars (nColloc m) nx nu) lam
      (fun i : Fin (nColloc m) => evalPoint d (nColloc m) fn (z .t0) (z .tf) scale (pointData env m z i))
      (fun i v r => if (i : ℕ) * nf ≤ r ∧ r < i * nf + nf then
        ext (fun j => (if scale then wAt env m i else 1) * fn.val (nodePt (tauAt env m i) i z) j) (r - i * nf) else v r)
      (fun i a b => ((evalJac nx nu nf (nColloc m) i (if scale then wAt env m i else 1) (tauAt env m i)
        (fn.jac (nodePt (tauAt env m i) i z))).map fun c => c.contrib a b).sum)
      (fun i a b => ∑ j : Fin nf, ((evalHess nx nu (nColloc m) i j ((if scale then wAt env m i else 1) * lam.val (nf * i + j))
        (tauAt env m i) (fn.hess (nodePt (tauAt env m i) i z))).map fun c => c.contrib a b).sum) i := by
  intro o ho
  have hfit := row_fits (n := nf) i
  obtain ⟨o', e, r, f, j, h⟩ := pointStep_spec (d := d) ho
    (fun v => v.setSeg (i * nf) nf (ext fun j => (if scale then wAt env m i else 1) * fn.val (nodePt (tauAt env m i) i z) j))
    (evalJac nx nu nf (nColloc m) i (if scale then wAt env m i else 1) (tauAt env m i) (fn.jac (nodePt (tauAt env m i) i z)))
    ((List.range nf).flatMap fun j => evalHess nx nu (nColloc m) i j ((if scale then wAt env m i else 1) * o.lambda.val (nf * i + j))
        (tauAt env m i) (fn.hess (nodePt (tauAt env m i) i z)))
    (fun v r => if (i : ℕ) * nf ≤ r ∧ r < i * nf + nf then
        ext (fun j => (if scale then wAt env m i else 1) * fn.val (nodePt (tauAt env m i) i z) j) (r - i * nf) else v r)
    (by rw [setSeg_eq _ _ _ _ (by rw [ho.size, mul_comm]; exact hfit), ho.size])
    (fun hd => evalJac_fits i _ _ _ (hfn hd _) hfit)
    (fun _ b hb => by
      obtain ⟨j, _, hb⟩ := List.mem_flatMap.1 hb
      exact evalHess_fits i j _ _ _ b hb)
  refine ⟨o', ?_, r, f, j, fun hd a b => ?_⟩
  · rw [← e]
    simp only [evalPoint, pointData]
    rw [pt_eq]
  · rw [h hd, sum_flatMap_range, ho.lambda]

theorem foldl_set {N n : ℕ} (val : Fin N → ℕ → ℝ) (l : List (Fin N)) (v : ℕ → ℝ) (i : Fin N) (j : ℕ) (hj : j < n) :
    l.foldl (fun v (i : Fin N) r => if (i : ℕ) * n ≤ r ∧ r < i * n + n then val i (r - i * n) else v r) v (n * i + j) =
      if i ∈ l then val i j else v (n * i + j) := by
  induction l generalizing v with
  | nil => simp
  | cons a l ih =>
    rw [List.foldl_cons, ih]
    by_cases h : i ∈ l
    · simp [h]
    · by_cases ha : i = a
      · subst ha
        simp only [h, if_false, List.mem_cons, true_or, if_true]
        rw [mul_comm, if_pos ⟨by omega, by omega⟩, Nat.add_sub_cancel_left]
      · simp only [h, if_false, List.mem_cons, ha, or_self]
        rw [if_neg]
        rintro ⟨h1, h2⟩
        rw [mul_comm] at h1
        rw [mul_comm (a : ℕ)] at h2
        exact ha (Fin.ext (mul_block hj h1 h2))

/-! ### mesh_integrate and the first part of mesh_dyn -/

/-- A point of the kind `w (tf - t0) f` that is written to the rows from `n * row` on. -/
theorem spanPoint_does {nf d : ℕ} {fn : Fn ℝ nx nu nf} (hfn : 1 ≤ d → ∀ p, (fn.jac p).rows = nf) (env : Env ℝ) (m : Mesh ℝ)
    (z : Var (nColloc m) nx nu → ℝ) (lam : Vec ℝ) (M : ℕ) (row : ℕ → ℕ) (step : Fin (nColloc m) → MV ℝ → Option (MV ℝ))
    (hstep : ∀ i o, step i o = pointStep d M (fun v => v.addSeg (nf * row i) nf
        (ext fun j => wAt env m i * (z .tf - z .t0) * fn.val (nodePt (tauAt env m i) i z) j))
      (intJac nx nu nf (nColloc m) i (nf * row i) (wAt env m i) (tauAt env m i) (z .tf - z .t0)
        (fn.val (nodePt (tauAt env m i) i z)) (fn.jac (nodePt (tauAt env m i) i z)))
      ((List.range nf).flatMap fun j => intHess nx nu (nColloc m) i j (wAt env m i * o.lambda.val (nf * row i + j))
        (tauAt env m i) (z .tf - z .t0) (fn.jac (nodePt (tauAt env m i) i z)) (fn.hess (nodePt (tauAt env m i) i z))) o)
    (i : Fin (nColloc m)) (hrow : nf * row i + nf ≤ M) :
    Does d M (numVars (nColloc m) nx nu) lam step
      (fun i v r => v r + if nf * row i ≤ r ∧ r < nf * row i + nf then
        ext (fun j => wAt env m i * (z .tf - z .t0) * fn.val (nodePt (tauAt env m i) i z) j) (r - nf * row i) else 0)
      (fun i a b => ((intJac nx nu nf (nColloc m) i (nf * row i) (wAt env m i) (tauAt env m i) (z .tf - z .t0)
        (fn.val (nodePt (tauAt env m i) i z)) (fn.jac (nodePt (tauAt env m i) i z))).map fun c => c.contrib a b).sum)
      (fun i a b => ∑ j : Fin nf, ((intHess nx nu (nColloc m) i j (wAt env m i * lam.val (nf * row i + j))
        (tauAt env m i) (z .tf - z .t0) (fn.jac (nodePt (tauAt env m i) i z))
        (fn.hess (nodePt (tauAt env m i) i z))).map fun c => c.contrib a b).sum) i := by
  intro o ho
  obtain ⟨o', e, r, f, j, h⟩ := pointStep_spec (d := d) ho
    (fun v => v.addSeg (nf * row i) nf (ext fun j => wAt env m i * (z .tf - z .t0) * fn.val (nodePt (tauAt env m i) i z) j))
    (intJac nx nu nf (nColloc m) i (nf * row i) (wAt env m i) (tauAt env m i) (z .tf - z .t0)
      (fn.val (nodePt (tauAt env m i) i z)) (fn.jac (nodePt (tauAt env m i) i z)))
    ((List.range nf).flatMap fun j => intHess nx nu (nColloc m) i j (wAt env m i * o.lambda.val (nf * row i + j))
      (tauAt env m i) (z .tf - z .t0) (fn.jac (nodePt (tauAt env m i) i z)) (fn.hess (nodePt (tauAt env m i) i z)))
    (fun v r => v r + if nf * row i ≤ r ∧ r < nf * row i + nf then
      ext (fun j => wAt env m i * (z .tf - z .t0) * fn.val (nodePt (tauAt env m i) i z) j) (r - nf * row i) else 0)
    (by rw [addSeg_eq _ _ _ _ (by rw [ho.size]; exact hrow), ho.size])
    (fun hd => intJac_fits i _ _ _ _ _ _ (hfn hd _) hrow)
    (fun _ b hb => by
      obtain ⟨j, _, hb⟩ := List.mem_flatMap.1 hb
      exact intHess_fits i j _ _ _ _ _ b hb)
  refine ⟨o', ?_, r, f, j, fun hd a b => ?_⟩
  · rw [← e, hstep]
  · rw [h hd, sum_flatMap_range, ho.lambda]

/-! ### The two functions in terms of the records -/

theorem iter_map {α β σ : Type*} (step : β → σ → Option σ) (g : α → β) (l : List α) (o : σ) :
    iter step (l.map g) o = iter (fun a => step (g a)) l o := by
  induction l generalizing o with
  | nil => rfl
  | cons a l ih =>
    simp only [List.map_cons, iter]
    cases step (g a) o with
    | none => rfl
    | some o' => exact ih o'

/-- What a call leaves, in terms of numbers. -/
structure Filled {N nx nu : ℕ} {ρ : Type} (d M : ℕ) (row : ρ → ℕ) (val : ρ → ℝ) (jac : ρ → Var N nx nu → ℝ)
    (hess : Var N nx nu → Var N nx nu → ℝ) (lambda : Vec ℝ) (o : MV ℝ) : Prop where
  allocated : o.allocated = true
  lambda_kept : o.lambda = lambda
  size : o.F.size = M
  value : ∀ r, o.F.val (row r) = val r
  dF_shape : 1 ≤ d → o.dF.rows = M ∧ o.dF.cols = numVars N nx nu
  jac : 1 ≤ d → ∀ r (v : Var N nx nu), o.dF.val (row r) v.pos = jac r v
  d2F_shape : 2 ≤ d → o.d2F.rows = numVars N nx nu ∧ o.d2F.cols = numVars N nx nu
  hess : 2 ≤ d → ∀ v w : Var N nx nu, o.d2F.val v.pos w.pos = if v.pos ≤ w.pos then hess v w else 0

/-- `mesh_eval` for any records of the right height. -/
theorem mesh_eval_raw {nf : ℕ} (d : ℕ) (env : Env ℝ) (m : Mesh ℝ) (fn : Fn ℝ nx nu nf) (hfn : 1 ≤ d → ∀ p, (fn.jac p).rows = nf) (scale : Bool)
    (z : Var (nColloc m) nx nu → ℝ) (out : MV ℝ) (hout : Usable d (nf * nColloc m) (numVars (nColloc m) nx nu) out) :
    ∃ o, meshEval d env m fn (z .t0) (z .tf) (states z) (inputs z) scale out = some o ∧
      Filled (nx := nx) (nu := nu) d (nf * nColloc m) rowOf (fun r : Fin (nColloc m) × Fin nf => (if scale then wAt env m r.1 else 1) * fn.val (nodePt (tauAt env m r.1) r.1 z) r.2)
        (fun r v => (if scale then wAt env m r.1 else 1) *
          pull (tauAt env m r.1) r.1 (fun a => (fn.jac (nodePt (tauAt env m r.1) r.1 z)).val r.2 a.pos) v)
        (fun v w => ∑ i : Fin (nColloc m), ∑ k : Fin nf, (if scale then wAt env m i else 1) * out.lambda.val (nf * i + k) *
          pull (tauAt env m i) i (fun a => pull (tauAt env m i) i
            (fun b => (fn.hess (nodePt (tauAt env m i) i z)).val a.pos ((1 + nx + nu) * k + b.pos)) w) v)
        out.lambda o := by
  obtain ⟨hr, hF, hdF, hd2F⟩ := start_ready hout
  obtain ⟨o, e, r, f, j, h⟩ := iter_spec (List.finRange (nColloc m))
    (fun i _ => evalPoint_does (d := d) hfn env m z scale out.lambda i) hr
  refine ⟨o, ?_, ⟨r.alloc, r.lambda, r.size, fun p => ?_, r.dF, fun h1 p v => ?_, r.d2F, fun h2 v w => ?_⟩⟩
  · rw [← e, ← iter_map (evalPoint d (nColloc m) fn (z .t0) (z .tf) scale) (pointData env m z), ← List.ofFn_eq_map,
      ← pointList_eq]
    rfl
  · obtain ⟨i, k⟩ := p
    rw [f, rowOf]
    have := foldl_set (n := nf) (fun i => ext fun j => (if scale then wAt env m i else 1) * fn.val (nodePt (tauAt env m i) i z) j)
      (List.finRange (nColloc m)) (((out.alloc d (nf * nColloc m) (numVars (nColloc m) nx nu)).setZero d).F.val) i k k.2
    refine this.trans ?_
    rw [if_pos (List.mem_finRange i)]
    simp [ext]
  · obtain ⟨i, k⟩ := p
    rw [j h1, hdF h1, zero_add, ← Fin.sum_univ_def]
    have hs : ∀ i' : Fin (nColloc m), ((evalJac nx nu nf (nColloc m) i' (if scale then wAt env m i' else 1) (tauAt env m i')
        (fn.jac (nodePt (tauAt env m i') i' z))).map fun c => c.contrib (rowOf (i, k)) v.pos).sum =
        if i' = i then (if scale then wAt env m i' else 1) *
          pull (tauAt env m i') i' (fun a => (fn.jac (nodePt (tauAt env m i') i' z)).val k a.pos) v else 0 := by
      intro i'
      rw [rowOf, evalJac_sum i' i k k.2 _ _ _ (hfn h1 _)]
      by_cases hi : i' = i
      · simp [hi]
      · rw [if_neg hi, if_neg (fun e => hi (Fin.ext e.symm))]
    simp only [hs, Finset.sum_ite_eq', Finset.mem_univ, if_true]
  · rw [h h2, hd2F h2, zero_add, ← Fin.sum_univ_def]
    simp only [evalHess_sum]
    by_cases hle : v.pos ≤ w.pos
    · simp only [if_pos hle]
    · simp only [if_neg hle, Finset.sum_const_zero]

/-- `mesh_integrate` for any records of the right height. -/
theorem mesh_integrate_raw {nf : ℕ} (d : ℕ) (env : Env ℝ) (m : Mesh ℝ) (fn : Fn ℝ nx nu nf) (hfn : 1 ≤ d → ∀ p, (fn.jac p).rows = nf)
    (hnf : 2 ≤ d → 1 ≤ nf) (z : Var (nColloc m) nx nu → ℝ) (out : MV ℝ) (hout : Usable d nf (numVars (nColloc m) nx nu) out) :
    ∃ o, meshIntegrate d env m fn (z .t0) (z .tf) (states z) (inputs z) out = some o ∧
      Filled (nx := nx) (nu := nu) d nf (fun j : Fin nf => (j : ℕ)) (fun k => (z .tf - z .t0) * ∑ i : Fin (nColloc m), wAt env m i * fn.val (nodePt (tauAt env m i) i z) k)
        (fun k v => ∑ i : Fin (nColloc m), wAt env m i * (dspan v * fn.val (nodePt (tauAt env m i) i z) k +
          (z .tf - z .t0) * pull (tauAt env m i) i (fun a => (fn.jac (nodePt (tauAt env m i) i z)).val k a.pos) v))
        (fun v w => ∑ i : Fin (nColloc m), ∑ k : Fin nf, wAt env m i * out.lambda.val k *
          (dspan v * pull (tauAt env m i) i (fun a => (fn.jac (nodePt (tauAt env m i) i z)).val k a.pos) w +
            dspan w * pull (tauAt env m i) i (fun a => (fn.jac (nodePt (tauAt env m i) i z)).val k a.pos) v +
            (z .tf - z .t0) * pull (tauAt env m i) i (fun a => pull (tauAt env m i) i
              (fun b => (fn.hess (nodePt (tauAt env m i) i z)).val a.pos ((1 + nx + nu) * k + b.pos)) w) v))
        out.lambda o := by
  obtain ⟨hr, hF, hdF, hd2F⟩ := start_ready hout
  have hdoes := fun i => spanPoint_does (d := d) hfn env m z out.lambda nf (fun _ => 0)
    (fun i : Fin (nColloc m) => intPoint d (nColloc m) fn (z .t0) (z .tf) (pointData env m z i)) (by
      intro i o
      simp only [intPoint, pointData, Nat.mul_zero, Nat.zero_add]
      rw [pt_eq]) i (by simp)
  obtain ⟨o, e, r, f, j, h⟩ := iter_spec (List.finRange (nColloc m)) (fun i _ => hdoes i) hr
  refine ⟨o, ?_, ⟨r.alloc, r.lambda, r.size, fun k => ?_, r.dF, fun h1 k v => ?_, r.d2F, fun h2 v w => ?_⟩⟩
  · rw [meshIntegrate, if_neg (fun h => by have := hnf h.2.1; omega)]
    rw [← e, ← iter_map (intPoint d (nColloc m) fn (z .t0) (z .tf)) (pointData env m z), ← List.ofFn_eq_map, ← pointList_eq]
    rfl
  · rw [f, foldl_add, hF, zero_add, ← Fin.sum_univ_def, Finset.mul_sum]
    refine Finset.sum_congr rfl fun i _ => ?_
    simp [ext]
    ring
  · rw [j h1, hdF h1, zero_add, ← Fin.sum_univ_def]
    have hs := fun i : Fin (nColloc m) => intJac_sum i 0 0 k k.2 (wAt env m i) (tauAt env m i) (z .tf - z .t0)
      (fn.val (nodePt (tauAt env m i) i z)) (fn.jac (nodePt (tauAt env m i) i z)) (hfn h1 _) v
    simp only [Nat.mul_zero, Nat.zero_add] at hs ⊢
    simp only [hs, if_true, Fin.eta]
  · rw [h h2, hd2F h2, zero_add, ← Fin.sum_univ_def]
    simp only [intHess_sum, Nat.mul_zero, Nat.zero_add]
    by_cases hle : v.pos ≤ w.pos
    · simp only [if_pos hle]
    · simp only [if_neg hle, Finset.sum_const_zero]

end Verif.MeshFn
