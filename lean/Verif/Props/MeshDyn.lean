import Verif.Proofs.MeshFnSlope
import Verif.Props.MeshFn

/-! # Dynamics over a mesh (C26) and reuse of buffers (C27) -/

set_option linter.unusedSectionVars false

namespace Verif.MeshFn

open Verif.Mesh Verif.Sparse

variable {nx nu nf : ℕ}

theorem dynSpec_contDiff {fn : Fn ℝ nx nu nx} (hfn : IsDr fn) (env : Env ℝ) (m : Mesh ℝ) (i : Fin (nColloc m)) (k : Fin nx) :
    ContDiff ℝ 2 (dynSpec env m fn.val i k) :=
  contDiff_const.mul ((span_contDiff.mul (comp_contDiff (hfn.smooth k) _ i)).sub (slopeAt_contDiff env (spans 1 m) k i))

theorem statePairs {N : ℕ} (z : Var N nx nu → ℝ) :
    (List.range (N + 1)).zip (states z) = (List.range' 0 (N + 1)).map fun i => (i, fun k => coordAt z k i) := by
  rw [← List.range_eq_range']
  apply List.ext_getElem
  · simp [states]
  · intro i h1 h2
    simp only [List.length_map, List.length_range] at h2
    simp only [List.getElem_zip, List.getElem_range, states, List.getElem_ofFn, List.getElem_map, coordAt, dif_pos h2]

/-- **C26.** `mesh_dyn` on any usable buffer returns, and leaves the collocation defects
`w_i ((tf - t0) f_k(t_i, x_i, u_i) - Σ_l D_{l,i} x_{l,k})` in row `nx i + k`, where `D` is the differentiation matrix of the
interval that contains point `i` and `l` runs over the nodes of that interval, including the first node of the next one; their
partial derivatives; and the upper triangle of the Hessian of their sum weighted with the multipliers. -/
theorem mesh_dyn_exact (d : ℕ) (env : Env ℝ) (m : Mesh ℝ) (hm : m ≠ []) (hK : ∀ v ∈ m, 1 ≤ v.K) (fn : Fn ℝ nx nu nx)
    (hfn : 1 ≤ d → IsDr fn) (z : Var (nColloc m) nx nu → ℝ) (out : MV ℝ)
    (hout : Usable d (nx * nColloc m) (numVars (nColloc m) nx nu) out) :
    ∃ o, meshDyn d env m fn (z .t0) (z .tf) (states z) (inputs z) out = some o ∧
      Holds d (nx * nColloc m) rowOf (fun r : Fin (nColloc m) × Fin nx => dynSpec env m fn.val r.1 r.2) z out.lambda o := by
  obtain ⟨hr, hF, hdF, hd2F⟩ := start_ready hout
  have hdoes := fun i : Fin (nColloc m) => spanPoint_does (d := d) (fun h => (hfn h).jac_rows) env m z out.lambda (nx * nColloc m) (fun i => i)
    (fun i : Fin (nColloc m) => dynPoint d (nColloc m) fn (z .t0) (z .tf) (pointData env m z i)) (by
      intro i o
      simp only [dynPoint, pointData]
      rw [pt_eq]) i (row_fits i)
  obtain ⟨o1, e1, r1, f1, j1, h1⟩ := iter_spec (List.finRange (nColloc m)) (fun i _ => hdoes i) hr
  -- the second part
  obtain ⟨v, r, hsp⟩ : ∃ v r, spans 1 m = v :: r := by
    cases h : spans 1 m with
    | nil =>
      have := spans_length 1 m
      rw [h] at this
      exact absurd (List.length_eq_zero_iff.1 this.symm) hm
    | cons v r => exact ⟨v, r, rfl⟩
  obtain ⟨v, b⟩ := v
  have hN : nColloc m = v.K + (r.map fun p => p.1.K).sum := by
    have e : m.map Ival.K = (spans 1 m).map fun p => p.1.K := by
      conv_lhs => rw [← spans_fst 1 m]
      rw [List.map_map]; rfl
    rw [nColloc_eq, points, e, hsp, List.map_cons, List.sum_cons]
  obtain ⟨o2, e2, r2, f2, j2, h2⟩ := walk_spec (d := d) (nu := nu) env m hK out.lambda (fun i k => coordAt z k i) r 0 0
    (nColloc m + 1) v b (by simpa using hsp) (by omega) (by omega) o1 r1
  have hK0 : nCollocIval m 0 = some v.K := by
    have := spans_getElem? m 0
    rw [hsp] at this
    cases hm0 : m[0]? with
    | none => rw [hm0] at this; simp at this
    | some v' =>
      rw [hm0] at this
      simp only [List.length_cons, Nat.zero_lt_succ, List.getElem?_eq_getElem, List.getElem_cons_zero, Option.map_some,
        Option.some.injEq, Prod.mk.injEq] at this
      rw [nCollocIval, hm0, ← this.1]; rfl
  have hw : ∀ i : Fin (nColloc m), wAt env m i = ((spans 1 m).flatMap (localWeights env)).getD i 0 := by
    intro i
    rw [wAt, allWeights_eq env m hm, getD_append_left]
    rw [flatMap_length_localWeights]
    exact lt_of_lt_of_eq i.2 (nColloc_eq m)
  have hws : ∀ (i : Fin (nColloc m)) (X : ℕ → ℝ), wslope env ((v, b) :: r) X i = -(wAt env m i * slope env (spans 1 m) X i) := by
    intro i X
    rw [← hsp, wslope_eq, hw]
  have hc' : 1 ≤ d → ∀ (k : Fin nx) (i : Fin (nColloc m)), ContDiff ℝ 2 fun z : Var (nColloc m) nx nu → ℝ =>
      fn.val (nodePt (tauAt env m i) i z) k := fun hd k i => comp_contDiff ((hfn hd).smooth k) _ i
  have hg' : 1 ≤ d → ∀ (k : Fin nx) (i : Fin (nColloc m)), ContDiff ℝ 2 fun z : Var (nColloc m) nx nu → ℝ =>
      (z .tf - z .t0) * fn.val (nodePt (tauAt env m i) i z) k := fun hd k i => span_contDiff.mul (hc' hd k i)
  refine ⟨o2, ?_, ⟨r2.alloc, r2.lambda, r2.size, fun p => ?_, r2.dF, fun hd p w => ?_, r2.d2F, fun hd w w' => ?_⟩⟩
  · have e1' : iter (dynPoint d (nColloc m) fn (z .t0) (z .tf)) (pointList env m (states z) (inputs z))
        ((out.alloc d (nx * nColloc m) (numVars (nColloc m) nx nu)).setZero d) = some o1 := by
      rw [← e1, pointList_eq, List.ofFn_eq_map, iter_map]
    have e1'' : iter (dynPoint d (nColloc m) fn (z .t0) (z .tf)) (pointList env m (states z) (inputs z))
        ((out.alloc d (nx * nColloc m) (2 + nx * (nColloc m + 1) + nu * nColloc m)).setZero d) = some o1 := e1'
    simp only [meshDyn, e1'', hK0]
    rw [statePairs]
    exact e2
  · obtain ⟨i, k⟩ := p
    simp only [rowOf]
    rw [f2, if_pos (Nat.zero_le _), f1, foldl_add, hF, zero_add, ← Fin.sum_univ_def, Finset.sum_eq_single i]
    · simp only [Nat.zero_add, Nat.sub_zero]
      rw [hws, if_pos ⟨by omega, by have := k.2; omega⟩, Nat.add_sub_cancel_left]
      simp only [ext, k.2, dif_pos, dynSpec]
      change _ + -(wAt env m i * slope env (spans 1 m) (coordAt z k) i) = _
      ring
    · intro i' _ hi'
      rw [if_neg]
      rintro ⟨e1, e2⟩
      exact hi' (Fin.ext (mul_block k.2 e1 e2).symm)
    · intro h; exact absurd (Finset.mem_univ _) h
  · have hfn := hfn hd
    have hc := hc' hd
    have hg := hg' hd
    obtain ⟨i, k⟩ := p
    simp only [rowOf]
    rw [j2 hd, if_pos (Nat.zero_le _), j1 hd, hdF hd, zero_add, ← Fin.sum_univ_def, Finset.sum_eq_single i]
    · rw [intJac_sum i i i k k.2 _ _ _ _ _ (hfn.jac_rows _), if_pos rfl]
      simp only [Nat.zero_add, Nat.sub_zero, Fin.eta]
      rw [hws]
      have hsub : ContDiff ℝ 2 fun z : Var (nColloc m) nx nu → ℝ => (z .tf - z .t0) * fn.val (nodePt (tauAt env m i) i z) k -
          slope env (spans 1 m) (coordAt z k) i := (hg k i).sub (slopeAt_contDiff env (spans 1 m) k i)
      have := pd_const_mul (wAt env m i) (contDiff_differentiable hsub z) w
      refine Eq.trans ?_ this.symm
      rw [pd_sub (f := fun z => (z .tf - z .t0) * fn.val (nodePt (tauAt env m i) i z) k)
        (g := fun z => slope env (spans 1 m) (coordAt z k) i) (contDiff_differentiable (hg k i) z)
        (contDiff_differentiable (slopeAt_contDiff env (spans 1 m) k i) z), pd_slopeAt,
        pd_span_mul (contDiff_differentiable (hc k i) z), pd_at_node (contDiff_differentiable (hfn.smooth k))]
      simp only [hfn.jac_val]
      change _ + -(wAt env m i * slope env (spans 1 m) (coordAt (unit w) k) i) = _
      ring
    · intro i' _ hi'
      rw [intJac_sum i' i' i k k.2 _ _ _ _ _ (hfn.jac_rows _), if_neg (fun e => hi' (Fin.ext e.symm))]
    · intro h; exact absurd (Finset.mem_univ _) h
  · have hd' : 1 ≤ d := by omega
    have hfn := hfn hd'
    have hc := hc' hd'
    have hg := hg' hd'
    rw [h2 hd, h1 hd, hd2F hd, zero_add, ← Fin.sum_univ_def]
    simp only [intHess_sum]
    by_cases hle : w.pos ≤ w'.pos
    · simp only [if_pos hle]
      rw [pd_pd_sum (g := fun r z => out.lambda.val (rowOf r) * dynSpec env m fn.val r.1 r.2 z)
        (fun r _ => contDiff_const.mul (dynSpec_contDiff hfn env m r.1 r.2)), Fintype.sum_prod_type]
      refine Finset.sum_congr rfl fun i _ => Finset.sum_congr rfl fun k _ => ?_
      rw [pd_pd_const_mul (dynSpec_contDiff hfn env m i k)]
      have hsub : ContDiff ℝ 2 fun z : Var (nColloc m) nx nu → ℝ => (z .tf - z .t0) * fn.val (nodePt (tauAt env m i) i z) k -
          slope env (spans 1 m) (coordAt z k) i := (hg k i).sub (slopeAt_contDiff env (spans 1 m) k i)
      have := pd_pd_const_mul hsub (wAt env m i) w w' z
      refine Eq.trans ?_ (congrArg (out.lambda.val (rowOf (i, k)) * ·) this.symm)
      rw [pd_pd_sub (hg k i) (slopeAt_contDiff env (spans 1 m) k i), pd_pd_slopeAt, pd_pd_span_mul (hc k i),
        pd_pd_at_node (hfn.smooth k), pd_at_node (contDiff_differentiable (hfn.smooth k)),
        pd_at_node (contDiff_differentiable (hfn.smooth k))]
      simp only [hfn.hess_val, hfn.jac_val, rowOf]
      ring
    · simp only [if_neg hle, Finset.sum_const_zero]

/-- **C26**, what the defects mean: if a coordinate of the states is sampled from a function that is a polynomial of degree at
most `K` on every interval with `K` points, then the defect compares `(tf - t0) f` with the derivative of that function with
respect to mesh time, from the right. In particular all defects vanish for exact polynomial solutions. -/
theorem mesh_dyn_defect (env : Env ℝ) (hB : IsLagrange env) {Kmin Kmax : ℕ} (hmin : 1 ≤ Kmin) (m : Mesh ℝ) (hm : Valid Kmin Kmax m)
    (hL : ∀ K, Kmin ≤ K → K ≤ Kmax + 1 → IsLGR env K) (f : (Arg nx nu → ℝ) → Fin nx → ℝ) (z : Var (nColloc m) nx nu → ℝ)
    (k : Fin nx) (s : ℝ → ℝ) (P : Ival ℝ × ℝ → Polynomial ℝ) (hP : ∀ p ∈ spans 1 m, (P p).natDegree ≤ p.1.K)
    (hs : ∀ p ∈ spans 1 m, ∀ x, p.1.tau0 ≤ x → x ≤ p.2 → s x = (P p).eval x)
    (hz : ∀ i : Fin (nColloc m + 1), z (.x i k) = s (tauAt env m i)) (i : Fin (nColloc m)) :
    ∃ p ∈ spans 1 m, p.1.tau0 ≤ tauAt env m i ∧ tauAt env m i < p.2 ∧
      dynSpec env m f i k z = wAt env m i * ((z .tf - z .t0) * f (nodePt (tauAt env m i) i z) k -
        (P p).derivative.eval (tauAt env m i)) := by
  have hi : (i : ℕ) < points m := lt_of_lt_of_eq i.2 (nColloc_eq m)
  obtain ⟨p, hp, h1, h2, h3⟩ := slope_poly hB hm.increasing hm.below
    (fun v hv => ⟨hmin.trans (hm.degree v hv).1, hL _ (hm.degree v hv).1 (hm.degree v hv).2⟩) s P hP hs (coordAt z k) (by
      intro j hj
      have hj' : j < nColloc m + 1 := by rw [nColloc_eq]; omega
      rw [coordAt, dif_pos hj', hz, tauAt, allNodes_eq env m hm.ne_nil]) i hi
  simp only [← allNodes_eq env m hm.ne_nil] at h1 h2 h3
  exact ⟨p, hp, h1, h2, by rw [dynSpec, h3]; rfl⟩

/-! ### Reuse of buffers -/

theorem Var.pos_surj {N c : ℕ} (h : c < numVars N nx nu) : ∃ v : Var N nx nu, v.pos = c := by
  unfold numVars at h
  by_cases h0 : c = 0
  · exact ⟨.t0, h0.symm⟩
  by_cases h1 : c = 1
  · exact ⟨.tf, h1.symm⟩
  by_cases hx : c < 2 + nx * (N + 1)
  · have hlt : c - 2 < nx * (N + 1) := by omega
    have hnx : 0 < nx := Nat.pos_of_ne_zero (by rintro rfl; simp at hlt)
    refine ⟨.x ⟨(c - 2) / nx, Nat.div_lt_of_lt_mul hlt⟩ ⟨(c - 2) % nx, Nat.mod_lt _ hnx⟩, ?_⟩
    simp only [Var.pos]
    have := Nat.div_add_mod (c - 2) nx
    omega
  · have hlt : c - (2 + nx * (N + 1)) < nu * N := by omega
    have hnu : 0 < nu := Nat.pos_of_ne_zero (by rintro rfl; simp at hlt)
    refine ⟨.u ⟨(c - (2 + nx * (N + 1))) / nu, Nat.div_lt_of_lt_mul hlt⟩ ⟨(c - (2 + nx * (N + 1))) % nu, Nat.mod_lt _ hnu⟩, ?_⟩
    simp only [Var.pos]
    have := Nat.div_add_mod (c - (2 + nx * (N + 1))) nu
    omega

theorem rowOf_surj {N n r : ℕ} (h : r < n * N) : ∃ p : Fin N × Fin n, rowOf p = r := by
  have hn : 0 < n := Nat.pos_of_ne_zero (by rintro rfl; simp at h)
  exact ⟨(⟨r / n, Nat.div_lt_of_lt_mul h⟩, ⟨r % n, Nat.mod_lt _ hn⟩), Nat.div_add_mod r n⟩

theorem Holds.same {N d M : ℕ} {ρ : Type} [Fintype ρ] {row : ρ → ℕ} (hrow : ∀ r < M, ∃ p, row p = r)
    {G : ρ → (Var N nx nu → ℝ) → ℝ} {z : Var N nx nu → ℝ} {lambda : Vec ℝ} {o o' : MV ℝ}
    (h : Holds d M row G z lambda o) (h' : Holds d M row G z lambda o') : Same d o o' := by
  refine ⟨h.size.trans h'.size.symm, fun r hr => ?_, fun hd => ?_, fun hd i hi j hj => ?_, fun hd => ?_, fun hd i hi j hj => ?_⟩
  · rw [h.size] at hr
    obtain ⟨p, rfl⟩ := hrow r hr
    rw [h.value, h'.value]
  · exact ⟨(h.dF_shape hd).1.trans (h'.dF_shape hd).1.symm, (h.dF_shape hd).2.trans (h'.dF_shape hd).2.symm⟩
  · rw [(h.dF_shape hd).1] at hi
    rw [(h.dF_shape hd).2] at hj
    obtain ⟨p, rfl⟩ := hrow i hi
    obtain ⟨v, rfl⟩ := Var.pos_surj hj
    rw [h.jac hd, h'.jac hd]
  · exact ⟨(h.d2F_shape hd).1.trans (h'.d2F_shape hd).1.symm, (h.d2F_shape hd).2.trans (h'.d2F_shape hd).2.symm⟩
  · rw [(h.d2F_shape hd).1] at hi
    rw [(h.d2F_shape hd).2] at hj
    obtain ⟨v, rfl⟩ := Var.pos_surj hi
    obtain ⟨w, rfl⟩ := Var.pos_surj hj
    rw [h.hess hd, h'.hess hd]

/-- The sizes of a buffer fit; the multipliers are about to be replaced. -/
structure Sized (d M V : ℕ) (o : MV ℝ) : Prop where
  size : o.allocated = true → o.F.size = M
  dF_shape : o.allocated = true → 1 ≤ d → o.dF.rows = M ∧ o.dF.cols = V
  d2F_shape : o.allocated = true → 2 ≤ d → o.d2F.rows = V ∧ o.d2F.cols = V

theorem Sized.usable {d M V : ℕ} {o : MV ℝ} (h : Sized d M V o) {l : Vec ℝ} (hl : 2 ≤ d → l.size = M) :
    Usable d M V { o with lambda := l } := ⟨h.size, h.dF_shape, h.d2F_shape, hl⟩

theorem Sized.fresh {d M V : ℕ} {o : MV ℝ} (h : o.allocated = false) : Sized d M V o := by
  refine ⟨fun h' => ?_, fun h' => ?_, fun h' => ?_⟩ <;> simp [h] at h'

theorem Holds.sized {N d M : ℕ} {ρ : Type} [Fintype ρ] {row : ρ → ℕ}
    {G : ρ → (Var N nx nu → ℝ) → ℝ} {z : Var N nx nu → ℝ} {lambda : Vec ℝ} {o : MV ℝ}
    (h : Holds d M row G z lambda o) : Sized d M (numVars N nx nu) o :=
  ⟨fun _ => h.size, fun _ => h.dF_shape, fun _ => h.d2F_shape⟩

theorem Filled.sized {N d M : ℕ} {ρ : Type} {row : ρ → ℕ} {val : ρ → ℝ} {jac : ρ → Var N nx nu → ℝ} {hess : Var N nx nu → Var N nx nu → ℝ}
    {lambda : Vec ℝ} {o : MV ℝ} (h : Filled d M row val jac hess lambda o) : Sized d M (numVars N nx nu) o :=
  ⟨fun _ => h.size, fun _ => h.dF_shape, fun _ => h.d2F_shape⟩

/-- Every call succeeds on every buffer with fitting sizes, leaves such a buffer, and gives the same numbers on all of them. -/
theorem call_spec {M : ℕ} (d : ℕ) (env : Env ℝ) (m : Mesh ℝ) (hm : m ≠ []) (hK : ∀ v ∈ m, 1 ≤ v.K) (c : Call m nx nu M)
    (hc : c.Ok d) (o o' : MV ℝ) (h : Sized d M (numVars (nColloc m) nx nu) o) (h' : Sized d M (numVars (nColloc m) nx nu) o') :
    ∃ r r', c.run d env o = some r ∧ c.run d env o' = some r' ∧ Sized d M (numVars (nColloc m) nx nu) r ∧ Same d r r' := by
  cases c with
  | eval fn scale z lambda =>
    obtain ⟨r, e, H⟩ := mesh_eval_exact d env m fn hc.1 scale z _ (h.usable hc.2)
    obtain ⟨r', e', H'⟩ := mesh_eval_exact d env m fn hc.1 scale z _ (h'.usable hc.2)
    exact ⟨r, r', e, e', H.sized, H.same (fun _ => rowOf_surj) H'⟩
  | integrate fn z lambda =>
    obtain ⟨r, e, H⟩ := mesh_integrate_exact d env m fn hc.1 hc.2.2 z _ (h.usable hc.2.1)
    obtain ⟨r', e', H'⟩ := mesh_integrate_exact d env m fn hc.1 hc.2.2 z _ (h'.usable hc.2.1)
    exact ⟨r, r', e, e', H.sized, H.same (fun r hr => ⟨⟨r, hr⟩, rfl⟩) H'⟩
  | dyn fn z lambda =>
    obtain ⟨r, e, H⟩ := mesh_dyn_exact d env m hm hK fn hc.1 z _ (h.usable hc.2)
    obtain ⟨r', e', H'⟩ := mesh_dyn_exact d env m hm hK fn hc.1 z _ (h'.usable hc.2)
    exact ⟨r, r', e, e', H.sized, H.same (fun _ => rowOf_surj) H'⟩

theorem runAll_spec {M : ℕ} (d : ℕ) (env : Env ℝ) (m : Mesh ℝ) (hm : m ≠ []) (hK : ∀ v ∈ m, 1 ≤ v.K)
    (l : List (Call m nx nu M)) (hl : ∀ c ∈ l, c.Ok d) (o : MV ℝ) (h : Sized d M (numVars (nColloc m) nx nu) o) :
    ∃ r, runAll d env l o = some r ∧ Sized d M (numVars (nColloc m) nx nu) r := by
  induction l generalizing o with
  | nil => exact ⟨o, rfl, h⟩
  | cons c l ih =>
    obtain ⟨r, _, e, _, hr, _⟩ := call_spec d env m hm hK c (hl c (by simp)) o o h h
    obtain ⟨r', e', hr'⟩ := ih (fun c hc => hl c (List.mem_cons_of_mem _ hc)) r hr
    exact ⟨r', by rw [runAll, e, Option.bind_some, e'], hr'⟩

/-- **C27.** Whatever calls of the three functions a buffer went through, each with its own function, point and multipliers, all
of them succeed, and the next call leaves the same numbers in it as in a fresh buffer. -/
theorem buffers_reusable {M : ℕ} (d : ℕ) (env : Env ℝ) (m : Mesh ℝ) (hm : m ≠ []) (hK : ∀ v ∈ m, 1 ≤ v.K)
    (history : List (Call m nx nu M)) (hh : ∀ c ∈ history, c.Ok d) (c : Call m nx nu M) (hc : c.Ok d)
    (start fresh : MV ℝ) (hs : start.allocated = false) (hf : fresh.allocated = false) :
    ∃ used r r', runAll d env history start = some used ∧ c.run d env used = some r ∧ c.run d env fresh = some r' ∧ Same d r r' := by
  obtain ⟨used, e, hu⟩ := runAll_spec d env m hm hK history hh start (Sized.fresh hs)
  obtain ⟨r, r', e1, e2, _, hs⟩ := call_spec d env m hm hK c hc used fresh hu (Sized.fresh hf)
  exact ⟨used, r, r', e, e1, e2, hs⟩

end Verif.MeshFn
