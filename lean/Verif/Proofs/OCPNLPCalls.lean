import Verif.Proofs.OCPNLPDeriv
import Verif.Props.MeshDyn

/-! # The nonlinear program: what the methods do, on any object with the right sizes -/

set_option linter.unusedSectionVars false

namespace Verif.NLP

open Verif.Mesh Verif.Sparse Verif.MeshFn Verif.QP

variable {nx nu nq ncr nce : ℕ}

/-- The sizes of an object. -/
structure Inv (nx nu nq ncr nce N : ℕ) (s : Obj ℝ) : Prop where
  g : s.g.size = nCons N nx nq ncr nce
  df : s.df.rows = 1 ∧ s.df.cols = nVars N nx nu nq
  dg : s.dg.rows = nCons N nx nq ncr nce ∧ s.dg.cols = nVars N nx nu nq
  d2f : s.d2f.rows = nVars N nx nu nq ∧ s.d2f.cols = nVars N nx nu nq
  d2g : s.d2g.rows = nVars N nx nu nq ∧ s.d2g.cols = nVars N nx nu nq
  dyn0 : Sized 0 (nx * N) (numVars N nx nu) s.dyn0
  int0 : Sized 0 nq (numVars N nx nu) s.int0
  cr0 : Sized 0 (ncr * N) (numVars N nx nu) s.cr0
  dyn1 : Sized 1 (nx * N) (numVars N nx nu) s.dyn1
  int1 : Sized 1 nq (numVars N nx nu) s.int1
  cr1 : Sized 1 (ncr * N) (numVars N nx nu) s.cr1
  dyn2 : Sized 2 (nx * N) (numVars N nx nu) s.dyn2
  int2 : Sized 2 nq (numVars N nx nu) s.int2
  cr2 : Sized 2 (ncr * N) (numVars N nx nu) s.cr2

theorem init_inv (N : ℕ) : Inv nx nu nq ncr nce N (Obj.init nx nu nq ncr nce N) := by
  have e := (begs nx nu nq N).2.2.2.2
  have e' := (cbegs nx nq ncr nce N).2.2.2.2
  constructor <;> first | exact e' | exact ⟨rfl, e⟩ | exact ⟨e, e⟩ | exact ⟨e', e⟩ | exact Sized.fresh rfl

section

variable {N : ℕ} {z : NVar N nx nu nq → ℝ} {x : Vec ℝ}

theorem endArgs_eq (h : IsVec z x) : endArgs nx nu nq N x = ends z := by
  obtain ⟨e1, e2, e3, e4, e5⟩ := begs nx nu nq N
  have e6 := xf_start nx nu nq N
  funext a
  cases a with
  | tf => simp only [endArgs, ends, e1]; exact h.val .tf
  | x0 k => simp only [endArgs, ends, e3]; simpa [NVar.pos] using h.val (.x 0 k)
  | xf k => simp only [endArgs, ends, e6]; simpa [NVar.pos] using h.val (.x (Fin.last N) k)
  | q k => simp only [endArgs, ends, e2]; exact h.val (.q k)

theorem colsX_eq (h : IsVec z x) : colsX nx nu nq N x = states (onMesh z) := by
  unfold colsX cols states
  rw [(begs nx nu nq N).2.2.1]
  apply List.ext_getElem
  · simp
  · intro i h1 h2
    simp only [List.length_ofFn] at h2
    simp only [List.getElem_map, List.getElem_range, List.getElem_ofFn, onMesh]
    funext k
    rw [← h.val]
    simp only [NVar.pos]
    congr 1; omega

theorem colsU_eq (h : IsVec z x) : colsU nx nu nq N x = inputs (onMesh z) := by
  unfold colsU cols inputs
  rw [(begs nx nu nq N).2.2.2.1]
  apply List.ext_getElem
  · simp
  · intro i h1 h2
    simp only [List.length_ofFn] at h2
    simp only [List.getElem_map, List.getElem_range, List.getElem_ofFn, onMesh]
    funext k
    rw [← h.val]
    simp only [NVar.pos]
    congr 1; omega

theorem NVar.pos_lt (v : NVar N nx nu nq) : v.pos < nVars N nx nu nq := by
  unfold nVars
  cases v with
  | x i k => have := row_le i k; simp only [NVar.pos]; omega
  | u i k => have := row_le i k; simp only [NVar.pos]; omega
  | _ => simp only [NVar.pos]; omega

theorem NVar.pos_surj {r : ℕ} (h : r < nVars N nx nu nq) : ∃ v : NVar N nx nu nq, v.pos = r := by
  unfold nVars at h
  by_cases h0 : r = 0
  · exact ⟨.tf, h0.symm⟩
  by_cases hq : r < 1 + nq
  · exact ⟨.q ⟨r - 1, by omega⟩, by simp only [NVar.pos]; omega⟩
  by_cases hx : r < 1 + nq + nx * (N + 1)
  · obtain ⟨p, hp⟩ := rowOf_surj (N := N + 1) (n := nx) (r := r - (1 + nq)) (by omega)
    exact ⟨.x p.1 p.2, by simp only [NVar.pos, rowOf] at *; omega⟩
  · obtain ⟨p, hp⟩ := rowOf_surj (N := N) (n := nu) (r := r - (1 + nq + nx * (N + 1))) (by omega)
    exact ⟨.u p.1 p.2, by simp only [NVar.pos, rowOf] at *; omega⟩

theorem rowOf_inj {N n : ℕ} {i i' : Fin N} {k k' : Fin n} (h : n * (i : ℕ) + k = n * i' + k') : i = i' ∧ k = k' := by
  have h1 : (i : ℕ) = i' := mul_block (b := (k : ℕ)) k.2 (by omega) (by omega)
  rw [h1] at h
  exact ⟨Fin.ext h1, Fin.ext (by omega)⟩

theorem NVar.pos_inj {v w : NVar N nx nu nq} (h : v.pos = w.pos) : v = w := by
  cases v with
  | tf => cases w <;> first | rfl | (simp only [NVar.pos] at h; omega)
  | q k =>
    cases w with
    | q k' => simp only [NVar.pos] at h; rw [Fin.ext (by omega : (k : ℕ) = k')]
    | _ => simp only [NVar.pos] at h; omega
  | x i k =>
    have := row_le i k
    cases w with
    | x i' k' => simp only [NVar.pos] at h; obtain ⟨rfl, rfl⟩ := rowOf_inj (i := i) (i' := i') (k := k) (k' := k') (by omega); rfl
    | _ => simp only [NVar.pos] at h; omega
  | u i k =>
    cases w with
    | u i' k' => simp only [NVar.pos] at h; obtain ⟨rfl, rfl⟩ := rowOf_inj (i := i) (i' := i') (k := k) (k' := k') (by omega); rfl
    | x i' k' => have := row_le i' k'; simp only [NVar.pos] at h; omega
    | _ => simp only [NVar.pos] at h; omega

theorem NCon.pos_lt (c : NCon N nx nq ncr nce) : c.pos < nCons N nx nq ncr nce := by
  unfold nCons
  cases c with
  | dyn i k => have := row_le i k; simp only [NCon.pos]; omega
  | cr i k => have := row_le i k; simp only [NCon.pos]; omega
  | _ => simp only [NCon.pos]; omega

theorem NCon.pos_surj {r : ℕ} (h : r < nCons N nx nq ncr nce) : ∃ c : NCon N nx nq ncr nce, c.pos = r := by
  unfold nCons at h
  by_cases hd : r < nx * N
  · obtain ⟨p, hp⟩ := rowOf_surj hd
    exact ⟨.dyn p.1 p.2, hp⟩
  by_cases hq : r < nx * N + nq
  · exact ⟨.int ⟨r - nx * N, by omega⟩, by simp only [NCon.pos]; omega⟩
  by_cases hc : r < nx * N + nq + ncr * N
  · obtain ⟨p, hp⟩ := rowOf_surj (N := N) (n := ncr) (r := r - (nx * N + nq)) (by omega)
    exact ⟨.cr p.1 p.2, by simp only [NCon.pos, rowOf] at *; omega⟩
  · exact ⟨.ce ⟨r - (nx * N + nq + ncr * N), by omega⟩, by simp only [NCon.pos]; omega⟩

theorem NCon.pos_inj {c d : NCon N nx nq ncr nce} (h : c.pos = d.pos) : c = d := by
  cases c with
  | dyn i k =>
    have := row_le i k
    cases d with
    | dyn i' k' => simp only [NCon.pos] at h; obtain ⟨rfl, rfl⟩ := rowOf_inj (i := i) (i' := i') (k := k) (k' := k') (by omega); rfl
    | _ => simp only [NCon.pos] at h; omega
  | int k =>
    cases d with
    | int k' => simp only [NCon.pos] at h; rw [Fin.ext (by omega : (k : ℕ) = k')]
    | dyn i' k' => have := row_le i' k'; simp only [NCon.pos] at h; omega
    | _ => simp only [NCon.pos] at h; omega
  | cr i k =>
    have := row_le i k
    cases d with
    | cr i' k' => simp only [NCon.pos] at h; obtain ⟨rfl, rfl⟩ := rowOf_inj (i := i) (i' := i') (k := k) (k' := k') (by omega); rfl
    | dyn i' k' => have := row_le i' k'; simp only [NCon.pos] at h; omega
    | _ => simp only [NCon.pos] at h; omega
  | ce k =>
    cases d with
    | ce k' => simp only [NCon.pos] at h; rw [Fin.ext (by omega : (k : ℕ) = k')]
    | dyn i' k' => have := row_le i' k'; simp only [NCon.pos] at h; omega
    | cr i' k' => have := row_le i' k'; simp only [NCon.pos] at h; omega
    | _ => simp only [NCon.pos] at h; omega

theorem IsVec.of_size (h : x.size = nVars N nx nu nq) : IsVec (fun v : NVar N nx nu nq => x.val v.pos) x := ⟨h, fun _ => rfl⟩

theorem setSeg_loc {F : Type*} [Field F] (v : Vec F) (b l : ℕ) (g : ℕ → F) (h : b + l ≤ v.size) :
    v.setSeg b l g = some ⟨v.size, fun r => ((loc b l r).map g).getD (v.val r)⟩ := by
  rw [setSeg_eq _ _ _ _ h]
  congr 2
  funext r
  unfold loc
  split <;> rfl

end

/-- The functions over the mesh, on buffers with the right sizes. -/
theorem mesh_calls (d : ℕ) (env : Mesh.Env ℝ) (m : Mesh ℝ) (hm : m ≠ []) (hK : ∀ v ∈ m, 1 ≤ v.K) (ocp : OCP ℝ nx nu nq ncr nce)
    (hd : 1 ≤ d → IsDr ocp.f ∧ IsDr ocp.g ∧ IsDr ocp.cr) (hq : 2 ≤ d → 1 ≤ nq) {z : NVar (nColloc m) nx nu nq → ℝ} {x : Vec ℝ}
    (h : IsVec z x) {b1 b2 b3 : MV ℝ} (h1 : Usable d (nx * nColloc m) (numVars (nColloc m) nx nu) b1)
    (h2 : Usable d nq (numVars (nColloc m) nx nu) b2) (h3 : Usable d (ncr * nColloc m) (numVars (nColloc m) nx nu) b3) :
    ∃ o1 o2 o3,
      meshDyn d env m ocp.f 0 (endArgs nx nu nq (nColloc m) x .tf) (colsX nx nu nq (nColloc m) x) (colsU nx nu nq (nColloc m) x) b1 = some o1 ∧
      meshIntegrate d env m ocp.g 0 (endArgs nx nu nq (nColloc m) x .tf) (colsX nx nu nq (nColloc m) x) (colsU nx nu nq (nColloc m) x) b2 = some o2 ∧
      meshEval d env m ocp.cr 0 (endArgs nx nu nq (nColloc m) x .tf) (colsX nx nu nq (nColloc m) x) (colsU nx nu nq (nColloc m) x) true b3 = some o3 ∧
      Holds d (nx * nColloc m) rowOf (fun r : Fin (nColloc m) × Fin nx => dynSpec env m ocp.f.val r.1 r.2) (onMesh z) b1.lambda o1 ∧
      Holds d nq (fun j : Fin nq => (j : ℕ)) (fun j => integralSpec env m ocp.g.val j) (onMesh z) b2.lambda o2 ∧
      Holds d (ncr * nColloc m) rowOf (fun r : Fin (nColloc m) × Fin ncr => evalSpec env m ocp.cr.val true r.1 r.2) (onMesh z) b3.lambda o3 := by
  rw [endArgs_eq h, colsX_eq h, colsU_eq h]
  obtain ⟨o1, e1, H1⟩ := mesh_dyn_exact d env m hm hK ocp.f (fun h => (hd h).1) (onMesh z) b1 h1
  obtain ⟨o2, e2, H2⟩ := mesh_integrate_exact d env m ocp.g (fun h => (hd h).2.1) hq (onMesh z) b2 h2
  obtain ⟨o3, e3, H3⟩ := mesh_eval_exact d env m ocp.cr (fun h => (hd h).2.2) true (onMesh z) b3 h3
  exact ⟨o1, o2, o3, e1, e2, e3, H1, H2, H3⟩

theorem Sized.usable' {d M V : ℕ} {o : MV ℝ} (h : Sized d M V o) (hd : d ≤ 1) : Usable d M V o :=
  ⟨h.size, h.dF_shape, h.d2F_shape, fun h2 => by omega⟩

theorem geval_spec (env : Mesh.Env ℝ) (m : Mesh ℝ) (hm : m ≠ []) (hK : ∀ v ∈ m, 1 ≤ v.K) (ocp : OCP ℝ nx nu nq ncr nce)
    {z : NVar (nColloc m) nx nu nq → ℝ} {x : Vec ℝ} (h : IsVec z x) {s : Obj ℝ} (hs : Inv nx nu nq ncr nce (nColloc m) s) :
    ∃ s', Obj.geval env ocp m x s = some s' ∧ Inv nx nu nq ncr nce (nColloc m) s' ∧
      ∀ c, s'.g.val c.pos = conFn ocp env m (wScaling env m) c z := by
  obtain ⟨o1, o2, o3, e1, e2, e3, H1, H2, H3⟩ := mesh_calls 0 env m hm hK ocp (by omega) (by omega) h
    (Sized.usable' hs.dyn0 (by omega)) (Sized.usable' hs.int0 (by omega)) (Sized.usable' hs.cr0 (by omega))
  have b5 := (begs nx nu nq (nColloc m)).2.2.2.2
  obtain ⟨c1, c2, c3, c4, c5⟩ := cbegs nx nq ncr nce (nColloc m)
  have hg := hs.g
  refine ⟨{ s with g := ⟨s.g.size, fun r =>
      ((loc (ceB nx nq ncr nce (nColloc m)) nce r).map (ext (ocp.ce.val (ends z)))).getD
      (((loc (crB nx nq ncr nce (nColloc m)) (ncr * nColloc m) r).map (fun r => wScaling env m * o3.F.val r)).getD
      (((loc (qcB nx nq ncr nce (nColloc m)) nq r).map
        (fun r => wScaling env m * (o2.F.val r - ext (fun k => ends z (.q k)) r))).getD
      (((loc (dB nx nq ncr nce (nColloc m)) (nx * nColloc m) r).map (fun r => wScaling env m * o1.F.val r)).getD
      (s.g.val r))))⟩, dyn0 := o1, int0 := o2, cr0 := o3 }, ?_, ?_, fun c => ?_⟩
  · unfold Obj.geval
    rw [if_pos (by rw [b5]; exact h.size)]
    simp only [e1, e2, e3]
    rw [if_pos ⟨H1.size, H2.size, H3.size⟩]
    rw [setSeg_loc _ _ _ _ (by rw [c1, hg, nCons, dL]; omega)]
    simp only
    rw [setSeg_loc _ _ _ _ (by rw [c2, hg, nCons, qL]; omega)]
    simp only
    rw [setSeg_loc _ _ _ _ (by rw [c3, hg, nCons, crL]; omega)]
    simp only
    rw [setSeg_loc _ _ _ _ (by rw [c4, hg, nCons])]
    simp only [endArgs_eq h]
    rfl
  · exact { hs with dyn0 := H1.sized, int0 := H2.sized, cr0 := H3.sized }
  · simp only [loc_ce, loc_cr, loc_int, loc_dyn]
    cases c with
    | dyn i k =>
      have := H1.value (i, k)
      simp only [rowOf] at this
      simp [conFn, this]
    | int k =>
      have := H2.value k
      simp [conFn, this, ext, ends]
    | cr i k =>
      have := H3.value (i, k)
      simp only [rowOf] at this
      simp [conFn, this]
    | ce k => simp [conFn, ext]

theorem dfdx_spec (m : Mesh ℝ) (hN : 1 ≤ nColloc m) (ocp : OCP ℝ nx nu nq ncr nce) (hd : IsDrE ocp.theta)
    {z : NVar (nColloc m) nx nu nq → ℝ} {x : Vec ℝ} (h : IsVec z x) {s : Obj ℝ} (hs : Inv nx nu nq ncr nce (nColloc m) s) :
    ∃ s', Obj.dfdx ocp m x s = some s' ∧ Inv nx nu nq ncr nce (nColloc m) s' ∧
      ∀ v, s'.df.val 0 v.pos = pd (objective ocp) v z := by
  have b5 := (begs nx nu nq (nColloc m)).2.2.2.2
  obtain ⟨A, e, hA, hv⟩ := blockAdds_spec (dfBlocks nx nu nq (nColloc m) (ocp.theta.jac (ends z))) (setZero s.df) (by
    have := endJac_fits (nx := nx) (nu := nu) (nq := nq) (N := nColloc m) 0 1 (ocp.theta.jac (ends z)) (by rw [hd.jac_rows])
    rw [b5] at this
    simpa only [setZero, hs.df.1, hs.df.2, dfBlocks_eq] using this)
  refine ⟨{ s with df := A }, ?_, { hs with df := ⟨hA.1.trans hs.df.1, hA.2.1.trans hs.df.2⟩ }, fun v => ?_⟩
  · unfold Obj.dfdx
    rw [if_pos (by rw [b5]; exact h.size)]
    simp only [endArgs_eq h, e]
  · simp only
    rw [hv, setZero_val, zero_add, dfBlocks_eq, endJac_sum hN, hd.jac_rows, loc_some rfl Nat.one_pos]
    have := pd_ends (contDiff_differentiable (hd.smooth 0)) v z
    refine Eq.trans ?_ this.symm
    simp only [Option.map_some, Option.getD_some]
    congr 1
    funext a
    exact hd.jac_val _ 0 a

theorem d2fdx2_spec (m : Mesh ℝ) (hN : 1 ≤ nColloc m) (ocp : OCP ℝ nx nu nq ncr nce) (hd : IsDrE ocp.theta)
    {z : NVar (nColloc m) nx nu nq → ℝ} {x : Vec ℝ} (h : IsVec z x) {s : Obj ℝ} (hs : Inv nx nu nq ncr nce (nColloc m) s) :
    ∃ s', Obj.d2fdx2 ocp m x s = some s' ∧ Inv nx nu nq ncr nce (nColloc m) s' ∧
      ∀ v w, s'.d2f.val v.pos w.pos = if v.pos ≤ w.pos ∧ ¬ mixed v w then pd (pd (objective ocp) v) w z else 0 := by
  have b5 := (begs nx nu nq (nColloc m)).2.2.2.2
  obtain ⟨A, e, hA, hv⟩ := blockAdds_spec (endHessBlocks nx nu nq (nColloc m) 0 1 (ocp.theta.hess (ends z))) (setZero s.d2f) (by
    have := endHess_fits (nx := nx) (nu := nu) (nq := nq) (N := nColloc m) 0 1 (ocp.theta.hess (ends z))
    rw [b5] at this
    simpa only [setZero, hs.d2f.1, hs.d2f.2] using this)
  refine ⟨{ s with d2f := A }, ?_, { hs with d2f := ⟨hA.1.trans hs.d2f.1, hA.2.1.trans hs.d2f.2⟩ }, fun v w => ?_⟩
  · unfold Obj.d2fdx2
    rw [if_pos (by rw [b5]; exact h.size)]
    simp only [endArgs_eq h, e]
  · simp only
    rw [hv, setZero_val, zero_add]
    obtain ⟨s1, s2⟩ := endHess_sum hN 0 1 (ocp.theta.hess (ends z)) v w
    by_cases hmix : mixed v w
    · rw [s2 hmix, if_neg (fun h => h.2 hmix)]
    · rw [s1 hmix]
      by_cases hle : v.pos ≤ w.pos
      · rw [if_pos hle, if_pos ⟨hle, hmix⟩]
        have := pd_pd_ends (hd.smooth 0) v w z
        refine Eq.trans ?_ this.symm
        rw [one_mul]
        congr 1
        funext a
        congr 1
        funext b
        exact hd.hess_val _ 0 a b
      · rw [if_neg hle, if_neg (fun h => hle h.1)]

theorem nColloc_pos {m : Mesh ℝ} (hm : m ≠ []) (hK : ∀ v ∈ m, 1 ≤ v.K) : 1 ≤ nColloc m := by
  cases m with
  | nil => exact absurd rfl hm
  | cons v m =>
    have := hK v (by simp)
    rw [nColloc_eq, points, List.map_cons, List.sum_cons]; omega

theorem conFn_contDiff (env : Mesh.Env ℝ) (m : Mesh ℝ) (ocp : OCP ℝ nx nu nq ncr nce) (hd : IsDrOCP ocp) (ws : ℝ)
    (c : NCon (nColloc m) nx nq ncr nce) : ContDiff ℝ 2 (conFn ocp env m ws c) := by
  cases c with
  | dyn i k => exact contDiff_const.mul ((dynSpec_contDiff hd.f env m i k).comp onMesh_contDiff')
  | int k =>
    refine contDiff_const.mul (((integralSpec_contDiff hd.g env m k).comp onMesh_contDiff').sub ?_)
    fun_prop
  | cr i k => exact contDiff_const.mul ((evalSpec_contDiff hd.cr env m true i k).comp onMesh_contDiff')
  | ce k => exact (hd.ce.smooth k).comp ends_contDiff'

theorem dgdx_spec (env : Mesh.Env ℝ) (m : Mesh ℝ) (hm : m ≠ []) (hK : ∀ v ∈ m, 1 ≤ v.K) (ocp : OCP ℝ nx nu nq ncr nce)
    (hd : IsDrOCP ocp) {z : NVar (nColloc m) nx nu nq → ℝ} {x : Vec ℝ} (h : IsVec z x) {s : Obj ℝ}
    (hs : Inv nx nu nq ncr nce (nColloc m) s) :
    ∃ s', Obj.dgdx env ocp m x s = some s' ∧ Inv nx nu nq ncr nce (nColloc m) s' ∧
      ∀ c v, s'.dg.val c.pos v.pos = pd (conFn ocp env m (wScaling env m) c) v z := by
  have hN := nColloc_pos hm hK
  obtain ⟨o1, o2, o3, e1, e2, e3, H1, H2, H3⟩ := mesh_calls 1 env m hm hK ocp (fun _ => ⟨hd.f, hd.g, hd.cr⟩) (by omega) h
    (Sized.usable' hs.dyn1 le_rfl) (Sized.usable' hs.int1 le_rfl) (Sized.usable' hs.cr1 le_rfl)
  obtain ⟨b1, b2, b3, b4, b5⟩ := begs nx nu nq (nColloc m)
  obtain ⟨c1, c2, c3, c4, c5⟩ := cbegs nx nq ncr nce (nColloc m)
  have r1 := (H1.dF_shape le_rfl).1
  have r2 := (H2.dF_shape le_rfl).1
  have r3 := (H3.dF_shape le_rfl).1
  have r4 := hd.ce.jac_rows (ends z)
  obtain ⟨A1, ea1, ha1, hv1⟩ := blockAdds_spec (meshJacBlocks nx nu nq (nColloc m) (dB nx nq ncr nce (nColloc m)) (wScaling env m) o1.dF ++
      meshJacBlocks nx nu nq (nColloc m) (qcB nx nq ncr nce (nColloc m)) (wScaling env m) o2.dF) (setZero s.dg) (by
    simp only [setZero, hs.dg.1, hs.dg.2, ← b5]
    intro b hb
    rcases List.mem_append.1 hb with hb | hb
    · exact meshJac_fits _ _ _ _ (by rw [r1, c1, nCons]; omega) b hb
    · exact meshJac_fits _ _ _ _ (by rw [r2, c2, nCons]; omega) b hb)
  have sh1 : A1.rows = nCons (nColloc m) nx nq ncr nce ∧ A1.cols = nVars (nColloc m) nx nu nq :=
    ⟨ha1.1.trans hs.dg.1, ha1.2.1.trans hs.dg.2⟩
  obtain ⟨A2, ea2, ha2, hv2⟩ := identityOp_spec (fun a b => a + b) A1 (qcB nx nq ncr nce (nColloc m)) (qB nx nu nq (nColloc m)) (qL nq)
    (-wScaling env m) (by rw [sh1.1, c2, nCons, qL]; omega) (by rw [sh1.2, b2, nVars, qL]; omega)
  have sh2 : A2.rows = nCons (nColloc m) nx nq ncr nce ∧ A2.cols = nVars (nColloc m) nx nu nq :=
    ⟨ha2.1.trans sh1.1, ha2.2.1.trans sh1.2⟩
  obtain ⟨A3, ea3, ha3, hv3⟩ := blockAdds_spec (meshJacBlocks nx nu nq (nColloc m) (crB nx nq ncr nce (nColloc m)) (wScaling env m) o3.dF ++
      endJacBlocks nx nu nq (nColloc m) (ceB nx nq ncr nce (nColloc m)) (ocp.ce.jac (ends z))) A2 (by
    simp only [sh2.1, sh2.2, ← b5]
    intro b hb
    rcases List.mem_append.1 hb with hb | hb
    · exact meshJac_fits _ _ _ _ (by rw [r3, c3, nCons]; omega) b hb
    · exact endJac_fits _ _ _ (by rw [r4, c4, nCons]) b hb)
  refine ⟨{ s with dg := A3, dyn1 := o1, int1 := o2, cr1 := o3 }, ?_,
    { hs with dg := ⟨ha3.1.trans sh2.1, ha3.2.1.trans sh2.2⟩, dyn1 := H1.sized, int1 := H2.sized, cr1 := H3.sized }, fun c v => ?_⟩
  · unfold Obj.dgdx
    rw [if_pos (by rw [b5]; exact h.size)]
    simp only [e1, e2, e3, ea1, blockAddIdentity, ea2]
    simp only [endArgs_eq h, ea3]
  · have hv2' : A2.val c.pos v.pos = A1.val c.pos v.pos +
        if OnDiagonal (qcB nx nq ncr nce (nColloc m)) (qB nx nu nq (nColloc m)) (qL nq) c.pos v.pos then -wScaling env m else 0 := by
      rw [Sp.val, hv2]
      split
      · rfl
      · rw [add_zero]; rfl
    have hdiag : OnDiagonal (qcB nx nq ncr nce (nColloc m)) (qB nx nu nq (nColloc m)) (qL nq) c.pos v.pos ↔
        ∃ k : Fin nq, c = .int k ∧ v = .q k := by
      constructor
      · rintro ⟨k, hk, h1, h2⟩
        refine ⟨⟨k, hk⟩, NCon.pos_inj ?_, NVar.pos_inj ?_⟩
        · rw [h1, c2]; rfl
        · rw [h2, b2]; rfl
      · rintro ⟨k, rfl, rfl⟩
        exact ⟨k, k.2, by rw [c2]; rfl, by rw [b2]; rfl⟩
    rw [hv3, hv2', hv1, setZero_val, zero_add]
    simp only [List.map_append, List.sum_append, meshJac_sum, endJac_sum hN, r1, r2, r3, r4, loc_dyn, loc_int, loc_cr, loc_ce, hdiag]
    cases c with
    | dyn i k =>
      have hG := dynSpec_contDiff hd.f env m i k
      have h1 := pd_const_mul (wScaling env m) (contDiff_differentiable (hG.comp onMesh_contDiff') z) v
      refine Eq.trans ?_ h1.symm
      have h2 := pd_mesh (contDiff_differentiable hG) v z
      refine Eq.trans ?_ (congrArg (wScaling env m * ·) h2.symm)
      have hj := H1.jac le_rfl (i, k)
      simp only [rowOf] at hj
      simp [hj]
    | int k =>
      have hG := integralSpec_contDiff hd.g env m k
      have hc := hG.comp (onMesh_contDiff' (nq := nq))
      have hsub : ContDiff ℝ 2 fun z : NVar (nColloc m) nx nu nq → ℝ => integralSpec env m ocp.g.val k (onMesh z) - z (.q k) :=
        hc.sub (by fun_prop)
      have h1 := pd_const_mul (wScaling env m) (contDiff_differentiable hsub z) v
      refine Eq.trans ?_ h1.symm
      rw [pd_sub (f := fun z => integralSpec env m ocp.g.val k (onMesh z)) (g := fun z => z (.q k)) (contDiff_differentiable hc z)
        (differentiable_coord _ z), pd_coord, pd_mesh (contDiff_differentiable hG)]
      have hj := H2.jac le_rfl k
      simp only [hj]
      cases v with
      | q k' =>
        by_cases hk : k = k'
        · subst hk; simp [pullM]
        · have : ¬ k' = k := fun e => hk e.symm
          simp [hk, this, pullM]
      | _ => simp [pullM, hj]
    | cr i k =>
      have hG := evalSpec_contDiff hd.cr env m true i k
      have h1 := pd_const_mul (wScaling env m) (contDiff_differentiable (hG.comp onMesh_contDiff') z) v
      refine Eq.trans ?_ h1.symm
      have h2 := pd_mesh (contDiff_differentiable hG) v z
      refine Eq.trans ?_ (congrArg (wScaling env m * ·) h2.symm)
      have hj := H3.jac le_rfl (i, k)
      simp only [rowOf] at hj
      simp [hj]
    | ce k =>
      have := pd_ends (contDiff_differentiable (hd.ce.smooth k)) v z
      refine Eq.trans ?_ this.symm
      simp [hd.ce.jac_val]

/-! ### Second derivatives of the constraints -/

/-- A sum over the constraints, by kind. -/
theorem NCon.sum_eq {N : ℕ} (F : NCon N nx nq ncr nce → ℝ) :
    ∑ c, F c = ∑ p : Fin N × Fin nx, F (.dyn p.1 p.2) + ∑ k, F (.int k) + ∑ p : Fin N × Fin ncr, F (.cr p.1 p.2) + ∑ k, F (.ce k) := by
  let e : (((Fin N × Fin nx) ⊕ Fin nq) ⊕ (Fin N × Fin ncr)) ⊕ Fin nce ≃ NCon N nx nq ncr nce :=
    { toFun := fun
        | .inl (.inl (.inl p)) => .dyn p.1 p.2
        | .inl (.inl (.inr k)) => .int k
        | .inl (.inr p) => .cr p.1 p.2
        | .inr k => .ce k
      invFun := fun
        | .dyn i k => .inl (.inl (.inl (i, k)))
        | .int k => .inl (.inl (.inr k))
        | .cr i k => .inl (.inr (i, k))
        | .ce k => .inr k
      left_inv := by rintro (((_ | _) | _) | _) <;> rfl
      right_inv := by rintro (_ | _ | _ | _) <;> rfl }
  rw [← e.sum_comp, Fintype.sum_sum_type, Fintype.sum_sum_type, Fintype.sum_sum_type]
  rfl

/-- The order of the variables over the mesh is kept. -/
theorem pullM_tri {N : ℕ} (φ : Var N nx nu → Var N nx nu → ℝ) (v w : NVar N nx nu nq) (h : v.pos ≤ w.pos) :
    pullM (fun a => pullM (fun b => if a.pos ≤ b.pos then φ a b else 0) w) v = pullM (fun a => pullM (fun b => φ a b) w) v := by
  cases v with
  | tf => cases w <;> first | rfl | (simp only [pullM]; rw [if_pos]; simp only [Var.pos]; omega)
  | q k => rfl
  | x i k =>
    cases w with
    | x i' k' =>
      simp only [NVar.pos] at h
      simp only [pullM]
      rw [if_pos]; simp only [Var.pos]; omega
    | u i' k' =>
      have := row_le i k
      simp only [pullM]
      rw [if_pos]; simp only [Var.pos]; omega
    | tf => simp only [NVar.pos] at h; omega
    | q k' => rfl
  | u i k =>
    cases w with
    | x i' k' => have := row_le i' k'; simp only [NVar.pos] at h; omega
    | u i' k' =>
      simp only [NVar.pos] at h
      simp only [pullM]
      rw [if_pos]; simp only [Var.pos]; omega
    | tf => simp only [NVar.pos] at h; omega
    | q k' => rfl

/-- Second derivatives of a weighted sum of functions over the mesh, from what a mesh function leaves. -/
theorem hess_mesh {N M : ℕ} {ρ : Type} [Fintype ρ] {row : ρ → ℕ} {G : ρ → (Var N nx nu → ℝ) → ℝ} (hG : ∀ r, ContDiff ℝ 2 (G r))
    {z : NVar N nx nu nq → ℝ} {lambda : Vec ℝ} {o : MV ℝ} (H : Holds 2 M row G (onMesh z) lambda o) (ws : ℝ)
    (v w : NVar N nx nu nq) (h : v.pos ≤ w.pos) :
    ws * pullM (fun a => pullM (fun b => o.d2F.val a.pos b.pos) w) v =
      pd (pd (fun z => ∑ r, lambda.val (row r) * (ws * G r (onMesh z))) v) w z := by
  have hS : ContDiff ℝ 2 fun y => ∑ r, lambda.val (row r) * G r y := ContDiff.sum fun r _ => contDiff_const.mul (hG r)
  have e : (fun z : NVar N nx nu nq → ℝ => ∑ r, lambda.val (row r) * (ws * G r (onMesh z))) =
      fun z => ws * (fun y => ∑ r, lambda.val (row r) * G r y) (onMesh z) := by
    funext z
    simp only [Finset.mul_sum]
    exact Finset.sum_congr rfl fun r _ => by ring
  have hS' : ContDiff ℝ 2 fun z : NVar N nx nu nq → ℝ => (fun y => ∑ r, lambda.val (row r) * G r y) (onMesh z) :=
    hS.comp onMesh_contDiff'
  rw [e, pd_pd_const_mul hS', pd_pd_mesh hS]
  simp only [H.hess le_rfl]
  rw [pullM_tri _ _ _ h]

/-- The Lagrange term of the constraints. -/
noncomputable def lagr (ocp : OCP ℝ nx nu nq ncr nce) (env : Mesh.Env ℝ) (m : Mesh ℝ) (ws : ℝ) (lambda : Vec ℝ)
    (z : NVar (nColloc m) nx nu nq → ℝ) : ℝ := ∑ c : NCon (nColloc m) nx nq ncr nce, lambda.val c.pos * conFn ocp env m ws c z

theorem pd_pd_add {ι : Type*} [Fintype ι] [DecidableEq ι] {f g : (ι → ℝ) → ℝ} (hf : ContDiff ℝ 2 f) (hg : ContDiff ℝ 2 g)
    (v w : ι) (z : ι → ℝ) : pd (pd (fun z => f z + g z) v) w z = pd (pd f v) w z + pd (pd g v) w z := by
  have h1 : pd (fun z => f z + g z) v = fun z => pd f v z + pd g v z := by
    funext z; exact pd_add (contDiff_differentiable hf z) (contDiff_differentiable hg z) v
  rw [h1, pd_add (pd_differentiable hf v z) (pd_differentiable hg v z)]

theorem pd_pd_coord {ι : Type*} [Fintype ι] [DecidableEq ι] (a v w : ι) (z : ι → ℝ) : pd (pd (fun z => z a) v) w z = 0 := by
  have h1 : pd (fun z : ι → ℝ => z a) v = fun _ => if a = v then 1 else 0 := by
    funext z; rw [pd_coord]
  rw [h1, pd_const]

theorem sum_flatMap' {α β : Type*} (f : β → ℝ) (g : α → List β) (l : List α) :
    ((l.flatMap g).map f).sum = (l.map fun a => ((g a).map f).sum).sum := by
  induction l with
  | nil => rfl
  | cons a l ih => rw [List.flatMap_cons, List.map_append, List.sum_append, ih, List.map_cons, List.sum_cons]

theorem d2gdx2_spec (env : Mesh.Env ℝ) (m : Mesh ℝ) (hm : m ≠ []) (hK : ∀ v ∈ m, 1 ≤ v.K) (hq : 1 ≤ nq)
    (ocp : OCP ℝ nx nu nq ncr nce) (hd : IsDrOCP ocp) {z : NVar (nColloc m) nx nu nq → ℝ} {x lambda : Vec ℝ} (h : IsVec z x)
    (hl : lambda.size = nCons (nColloc m) nx nq ncr nce) {s : Obj ℝ} (hs : Inv nx nu nq ncr nce (nColloc m) s) :
    ∃ s', Obj.d2gdx2 env ocp m x lambda s = some s' ∧ Inv nx nu nq ncr nce (nColloc m) s' ∧
      ∀ v w, s'.d2g.val v.pos w.pos =
        if v.pos ≤ w.pos ∧ ¬ mixed v w then pd (pd (lagr ocp env m (wScaling env m) lambda) v) w z else 0 := by
  have hN := nColloc_pos hm hK
  obtain ⟨c1, c2, c3, c4, c5⟩ := cbegs nx nq ncr nce (nColloc m)
  have b5 := (begs nx nu nq (nColloc m)).2.2.2.2
  obtain ⟨o1, o2, o3, e1, e2, e3, H1, H2, H3⟩ := mesh_calls 2 env m hm hK ocp (fun _ => ⟨hd.f, hd.g, hd.cr⟩) (fun _ => hq) h
    (b1 := { s.dyn2 with lambda := Vec.seg lambda (dB nx nq ncr nce (nColloc m)) (dL nx (nColloc m)) })
    (b2 := { s.int2 with lambda := Vec.seg lambda (qcB nx nq ncr nce (nColloc m)) (qL nq) })
    (b3 := { s.cr2 with lambda := Vec.seg lambda (crB nx nq ncr nce (nColloc m)) (crL ncr (nColloc m)) })
    ⟨hs.dyn2.size, hs.dyn2.dF_shape, hs.dyn2.d2F_shape, fun _ => rfl⟩
    ⟨hs.int2.size, hs.int2.dF_shape, hs.int2.d2F_shape, fun _ => rfl⟩
    ⟨hs.cr2.size, hs.cr2.dF_shape, hs.cr2.d2F_shape, fun _ => rfl⟩
  obtain ⟨A, ea, ha, hv⟩ := blockAdds_spec (meshHessBlocks nx nu nq (nColloc m) (wScaling env m) [o1.d2F, o2.d2F, o3.d2F] ++
      (List.range nce).flatMap fun j => endHessBlocks nx nu nq (nColloc m) j (lambda.val (ceB nx nq ncr nce (nColloc m) + j))
        (ocp.ce.hess (ends z))) (setZero s.d2g) (by
    simp only [setZero, hs.d2g.1, hs.d2g.2, ← b5]
    intro b hb
    rcases List.mem_append.1 hb with hb | hb
    · exact meshHess_fits _ _ b hb
    · obtain ⟨j, -, hb⟩ := List.mem_flatMap.1 hb
      exact endHess_fits _ _ _ b hb)
  refine ⟨{ s with d2g := A, dyn2 := o1, int2 := o2, cr2 := o3 }, ?_,
    { hs with d2g := ⟨ha.1.trans hs.d2g.1, ha.2.1.trans hs.d2g.2⟩, dyn2 := H1.sized, int2 := H2.sized, cr2 := H3.sized }, fun v w => ?_⟩
  · unfold Obj.d2gdx2
    rw [if_pos ⟨by rw [b5]; exact h.size, by rw [c5]; exact hl⟩]
    simp only [e1, e2, e3]
    simp only [endArgs_eq h, ea]
  · simp only
    rw [hv, setZero_val, zero_add, List.map_append, List.sum_append, meshHess_sum, sum_flatMap']
    simp only [List.map_cons, List.map_nil, List.sum_cons, List.sum_nil, add_zero]
    by_cases hmix : mixed v w
    · have hno : ¬ (v.pos ≤ w.pos ∧ ¬ mixed v w) := fun h => h.2 hmix
      rw [if_neg hno]
      simp only [(endHess_sum hN _ _ _ v w).2 hmix]
      cases v with
      | q k => simp [pullM]
      | _ => simp [mixed] at hmix
    simp only [(endHess_sum hN _ _ _ v w).1 hmix]
    by_cases hle : v.pos ≤ w.pos
    swap
    · simp [hle]
    rw [if_pos hle, if_pos ⟨hle, hmix⟩]
    simp only [hle, if_true]
    rw [hess_mesh (G := fun r : Fin (nColloc m) × Fin nx => dynSpec env m ocp.f.val r.1 r.2) (fun r => dynSpec_contDiff hd.f env m r.1 r.2) H1 _ v w hle,
      hess_mesh (fun r => integralSpec_contDiff hd.g env m r) H2 _ v w hle,
      hess_mesh (G := fun r : Fin (nColloc m) × Fin ncr => evalSpec env m ocp.cr.val true r.1 r.2) (fun r => evalSpec_contDiff hd.cr env m true r.1 r.2) H3 _ v w hle]
    have hc := conFn_contDiff env m ocp hd (wScaling env m)
    have hE : lagr ocp env m (wScaling env m) lambda = fun z =>
        ∑ p : Fin (nColloc m) × Fin nx, lambda.val (NCon.dyn (nq := nq) (ncr := ncr) (nce := nce) p.1 p.2).pos *
            conFn ocp env m (wScaling env m) (.dyn p.1 p.2) z +
        ∑ k, lambda.val (NCon.int (nx := nx) (N := nColloc m) (ncr := ncr) (nce := nce) k).pos * conFn ocp env m (wScaling env m) (.int k) z +
        ∑ p : Fin (nColloc m) × Fin ncr, lambda.val (NCon.cr (nx := nx) (nq := nq) (nce := nce) p.1 p.2).pos *
            conFn ocp env m (wScaling env m) (.cr p.1 p.2) z +
        ∑ k, lambda.val (NCon.ce (N := nColloc m) (nx := nx) (nq := nq) (ncr := ncr) k).pos * conFn ocp env m (wScaling env m) (.ce k) z := by
      funext z
      exact NCon.sum_eq _
    have s1 : ContDiff ℝ 2 fun z => ∑ p : Fin (nColloc m) × Fin nx, lambda.val (NCon.dyn (nq := nq) (ncr := ncr) (nce := nce) p.1 p.2).pos *
        conFn ocp env m (wScaling env m) (.dyn p.1 p.2) z := ContDiff.sum fun r _ => contDiff_const.mul (hc _)
    have s2 : ContDiff ℝ 2 fun z => ∑ k, lambda.val (NCon.int (nx := nx) (N := nColloc m) (ncr := ncr) (nce := nce) k).pos *
        conFn ocp env m (wScaling env m) (.int k) z := ContDiff.sum fun r _ => contDiff_const.mul (hc _)
    have s3 : ContDiff ℝ 2 fun z => ∑ p : Fin (nColloc m) × Fin ncr, lambda.val (NCon.cr (nx := nx) (nq := nq) (nce := nce) p.1 p.2).pos *
        conFn ocp env m (wScaling env m) (.cr p.1 p.2) z := ContDiff.sum fun r _ => contDiff_const.mul (hc _)
    have s4 : ContDiff ℝ 2 fun z => ∑ k, lambda.val (NCon.ce (N := nColloc m) (nx := nx) (nq := nq) (ncr := ncr) k).pos *
        conFn ocp env m (wScaling env m) (.ce k) z := ContDiff.sum fun r _ => contDiff_const.mul (hc _)
    rw [hE, pd_pd_add ((s1.add s2).add s3) s4, pd_pd_add (s1.add s2) s3, pd_pd_add s1 s2]
    have t1 : ∀ p : Fin (nColloc m) × Fin nx,
        (Vec.seg lambda (dB nx nq ncr nce (nColloc m)) (dL nx (nColloc m))).val (rowOf p) =
          lambda.val (NCon.dyn (nq := nq) (ncr := ncr) (nce := nce) p.1 p.2).pos := fun p => by
      simp only [Vec.seg, c1, rowOf, NCon.pos, Nat.zero_add]
    have t2 : ∀ k : Fin nq, (Vec.seg lambda (qcB nx nq ncr nce (nColloc m)) (qL nq)).val (k : ℕ) =
          lambda.val (NCon.int (nx := nx) (N := nColloc m) (ncr := ncr) (nce := nce) k).pos := fun k => by
      simp only [Vec.seg, c2, NCon.pos]
    have t3 : ∀ p : Fin (nColloc m) × Fin ncr,
        (Vec.seg lambda (crB nx nq ncr nce (nColloc m)) (crL ncr (nColloc m))).val (rowOf p) =
          lambda.val (NCon.cr (nx := nx) (nq := nq) (nce := nce) p.1 p.2).pos := fun p => by
      simp only [Vec.seg, c3, rowOf, NCon.pos, Nat.add_assoc]
    simp only [t1, t2, t3]
    have u2 : pd (pd (fun z => ∑ k, lambda.val (NCon.int (nx := nx) (N := nColloc m) (ncr := ncr) (nce := nce) k).pos *
          (wScaling env m * integralSpec env m ocp.g.val k (onMesh z))) v) w z =
        pd (pd (fun z => ∑ k, lambda.val (NCon.int (nx := nx) (N := nColloc m) (ncr := ncr) (nce := nce) k).pos *
          conFn ocp env m (wScaling env m) (.int k) z) v) w z := by
      have hi : ∀ k, ContDiff ℝ 2 fun z : NVar (nColloc m) nx nu nq → ℝ => integralSpec env m ocp.g.val k (onMesh z) := fun k =>
        (integralSpec_contDiff hd.g env m k).comp onMesh_contDiff'
      rw [pd_pd_sum (fun k _ => contDiff_const.mul (contDiff_const.mul (hi k))), pd_pd_sum (fun k _ => contDiff_const.mul (hc _))]
      refine Finset.sum_congr rfl fun k _ => ?_
      have hx : ContDiff ℝ 2 fun z : NVar (nColloc m) nx nu nq → ℝ => z (.q k) := by fun_prop
      rw [pd_pd_const_mul (contDiff_const.mul (hi k)), pd_pd_const_mul (hc _), pd_pd_const_mul (hi k)]
      change _ = _ * pd (pd (fun z => wScaling env m * (integralSpec env m ocp.g.val k (onMesh z) - z (.q k))) v) w z
      rw [pd_pd_const_mul ((hi k).sub hx), pd_pd_sub (hi k) hx, pd_pd_coord, sub_zero]
    have u4 : ((List.range nce).map fun j => lambda.val (ceB nx nq ncr nce (nColloc m) + j) *
          pullE (fun a => pullE (fun b => (ocp.ce.hess (ends z)).val a.pos ((1 + 2 * nx + nq) * j + b.pos)) w) v).sum =
        pd (pd (fun z => ∑ k, lambda.val (NCon.ce (N := nColloc m) (nx := nx) (nq := nq) (ncr := ncr) k).pos *
          conFn ocp env m (wScaling env m) (.ce k) z) v) w z := by
      rw [pd_pd_sum (fun k _ => contDiff_const.mul (hc _)), sum_range_map, Finset.sum_range]
      refine Finset.sum_congr rfl fun k _ => ?_
      rw [pd_pd_const_mul (hc _)]
      change _ = _ * pd (pd (fun z => ocp.ce.val (ends z) k) v) w z
      rw [pd_pd_ends (hd.ce.smooth k), c4]
      simp only [hd.ce.hess_val, NCon.pos]
    rw [u2, ← u4]
    simp only [conFn, add_assoc]

end Verif.NLP
