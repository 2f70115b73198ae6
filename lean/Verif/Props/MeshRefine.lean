import Verif.Proofs.MeshRefine
import Verif.Props.MeshReal

/-! # The mesh refinement loop (C107) -/

namespace Verif.Mesh

open Polynomial Verif.NLP

section

variable {F : Type*} [Field F] [LinearOrder F] [IsStrictOrderedRing F]

/-- **C107, degrees.** Raising all degrees and lowering them again, as the examples do around the error measurement, restores a mesh
exactly when no interval has the extra degree `Kmax + 1`. (An interval of degree `Kmax + 1`, which the constructor and
`set_N_colloc_ival` accept, loses a point.) -/
theorem degrees_restored_iff (Kmin Kmax : ℕ) (h : Kmin ≤ Kmax) (m : Mesh F) (hm : ∀ v ∈ m, Kmin ≤ v.K ∧ v.K ≤ Kmax + 1) :
    decreaseDegrees Kmin (increaseDegrees Kmax m) = m ↔ ∀ v ∈ m, v.K ≤ Kmax := by
  unfold decreaseDegrees increaseDegrees
  rw [List.map_map]
  constructor
  · intro he v hv
    have := List.map_inj_left.1 (he.trans (List.map_id m).symm) v hv
    simp only [Function.comp_apply, id_eq] at this
    have hK : max (min (v.K + 1) (Kmax + 1) - 1) Kmin = v.K := congrArg Ival.K this
    have := hm v hv
    omega
  · intro hd
    refine (List.map_inj_left.2 fun v hv => ?_).trans (List.map_id m)
    simp only [Function.comp_apply, id_eq]
    have h1 := hd v hv
    have h2 := hm v hv
    have hK : max (min (v.K + 1) (Kmax + 1) - 1) Kmin = v.K := by omega
    rw [hK]

/-- `Mesh<5, 10>(2, 11)` comes back with ten points per interval. -/
example : decreaseDegrees 5 (increaseDegrees 10 [⟨11, 0⟩, ⟨7, 1 / 2⟩]) = ([⟨10, 0⟩, ⟨7, 1 / 2⟩] : Mesh ℚ) := by decide +kernel

/-- **C107, finer meshes.** `refine_errors` gives a finer mesh, every interval of which lies in an old one of no higher degree, exactly
when no interval of more than the least degree is split. -/
theorem refine_errors_finer_iff (env : Env F) (hS : IsSearch env) (Kmin Kmax : ℕ) (h1 : 1 ≤ Kmin) (m m' : Mesh F)
    (hm : Valid Kmin Kmax m) (errs : List F) (target : F) (hr : refineErrors env Kmin Kmax m errs target = some m') :
    Finer m m' ↔ NoSplit Kmin Kmax env.growth target m errs := by
  have hl : m.length = errs.length := by
    by_contra h
    simp [refineErrors, h] at hr
  rw [refineErrors_eq env Kmin Kmax h1 m errs target hl] at hr
  obtain rfl := Option.some.inj hr
  have zipm : ∀ v b e, ((v, b), e) ∈ (spans 1 m).zip errs → (v, e) ∈ m.zip errs := by
    intro v b e h
    obtain ⟨i, hi, hx⟩ := List.getElem_of_mem h
    rw [List.getElem_zip] at hx
    have h1 : (spans 1 m)[i]? = some (v, b) := by
      rw [List.getElem?_eq_getElem (by rw [List.length_zip] at hi; omega), (Prod.mk.inj hx).1]
    have h2 : errs[i]? = some e := by
      rw [List.getElem?_eq_getElem (by rw [List.length_zip] at hi; omega), (Prod.mk.inj hx).2]
    apply List.mem_of_getElem? (i := i)
    rw [List.getElem?_zip_eq_some]
    exact ⟨(spans_some h1).1, h2⟩
  have hsp := spans_flatMap env Kmin Kmax target 1 m errs hl
  constructor
  · rintro hf ⟨v, e⟩ hx ht
    obtain ⟨i, hi⟩ := List.mem_iff_getElem?.1 hx
    obtain ⟨hv, he⟩ := List.getElem?_zip_eq_some.1 hi
    have hs : (spans 1 m)[i]? = some (v, tauf m i) := by rw [spans_getElem?, hv]; rfl
    have hord := span_ordered hm hs
    have hd := hm.degree v (List.mem_of_getElem? hv)
    by_contra hno
    push Not at hno
    obtain ⟨hne, hno⟩ := hno
    have hbig : Kmax < v.K + env.growth v.K e target ∨ Kmax < v.K := by
      by_contra hc
      push Not at hc
      exact absurd (hno hc.1) (not_lt.2 hc.2)
    -- the second piece
    obtain ⟨n, hn⟩ : ∃ n, max 2 ((v.K + env.growth v.K e target + Kmin - 1) / Kmin) = n := ⟨_, rfl⟩
    have hn2 : 2 ≤ n := by omega
    have hpiece : ((⟨Kmin, v.tau0 + (tauf m i - v.tau0) / (n : F)⟩ : Ival F), v.tau0 + 2 * ((tauf m i - v.tau0) / (n : F))) ∈
        spans (tauf m i) (refinedByError env Kmin Kmax target ((v, tauf m i), e)) := by
      unfold refinedByError refined
      simp only
      rw [if_pos ht, if_pos hbig, hn, equalParts_spans _ _ _ (by omega)]
      simp only [List.mem_map, List.mem_range]
      refine ⟨1, hn2, ?_⟩
      norm_num
    have hmem : ((v, tauf m i), e) ∈ (spans 1 m).zip errs := by
      apply List.mem_of_getElem? (i := i)
      rw [List.getElem?_zip_eq_some]; exact ⟨hs, he⟩
    obtain ⟨⟨w, c⟩, hw, hw1, hw2, hw3⟩ := hf _ (by rw [hsp]; exact List.mem_flatMap.2 ⟨_, hmem, hpiece⟩)
    simp only at hw1 hw2 hw3
    obtain ⟨j, hj⟩ := List.mem_iff_getElem?.1 hw
    have hn' : (0 : F) < n := by exact_mod_cast (by omega : 0 < n)
    have hdd : 0 < (tauf m i - v.tau0) / (n : F) := div_pos (by linarith [hord.1]) hn'
    have hnn : (n : F) * ((tauf m i - v.tau0) / n) = tauf m i - v.tau0 := by field_simp
    have hn2' : (2 : F) ≤ n := by exact_mod_cast hn2
    have hlt : v.tau0 + (tauf m i - v.tau0) / (n : F) < tauf m i := by nlinarith
    have hfc := (interval_find_correct env hS Kmin Kmax m hm (v.tau0 + (tauf m i - v.tau0) / (n : F))).2.2
      (by linarith [hord.2.2]) (lt_of_lt_of_le hlt hord.2.1)
    have e1 := hfc.2 i v _ hs (by linarith) hlt
    have e2 := hfc.2 j w c hj hw1 (by linarith)
    rw [e1] at e2
    subst e2
    rw [hs] at hj
    obtain ⟨rfl, -⟩ : v = w ∧ tauf m i = c := by simpa using hj
    have hne' : v.K ≠ Kmin := hne
    have hw3' : v.K ≤ Kmin := hw3
    omega
  · intro hns p' hp'
    rw [hsp] at hp'
    obtain ⟨⟨⟨v, b⟩, e⟩, hx, hp⟩ := List.mem_flatMap.1 hp'
    have hxm := (List.of_mem_zip hx).1
    have := piece_inside ((spans_ordered hm.increasing hm.below).1 _ hxm).1 hp
    exact ⟨(v, b), hxm, this.1, this.2.1, this.2.2.2.1 (hns (v, e) (zipm v b e hx))⟩

end

/-- **C107, transfer, both directions.** Let every interval of `m'` lie in one of `m`. Resampling reproduces every state trajectory if and
only if no interval of `m'` has a lower degree than the interval of `m` it lies in. -/
theorem transfer_exact_iff (env : Env ℝ) (hB : IsLagrange env) (hS : IsSearch env) (Kmin Kmax : ℕ) (h1 : 1 ≤ Kmin) (m m' : Mesh ℝ)
    (hm : Valid Kmin Kmax m) (hm' : Valid Kmin Kmax m') (hL : ∀ K, Kmin ≤ K → K ≤ Kmax + 1 → IsLGR env K)
    (hn : ∀ p' ∈ spans 1 m', ∃ p ∈ spans 1 m, p.1.tau0 ≤ p'.1.tau0 ∧ p'.2 ≤ p.2) (d : ℕ) (hd : 0 < d) :
    (∀ r r' : List (Fin d → ℝ), r.length = (allNodes env m).length →
      SampledAt (allNodes env m') true (fun t => eval env m t r 0 true) r' → ∀ t, eval env m' t r' 0 true = eval env m t r 0 true) ↔
    Finer m m' := by
  constructor
  · intro h p' hp'
    obtain ⟨⟨v, b⟩, hp, ha, hb⟩ := hn p' hp'
    refine ⟨(v, b), hp, ha, hb, ?_⟩
    by_contra hK
    push Not at hK
    simp only at ha hb hK
    obtain ⟨w, b'⟩ := p'
    simp only at ha hb hK
    obtain ⟨i, hi⟩ := List.mem_iff_getElem?.1 hp
    obtain ⟨i', hi'⟩ := List.mem_iff_getElem?.1 hp'
    have hord := span_ordered hm hi
    have hord' := span_ordered hm' hi'
    have nl : ∀ {q : Mesh ℝ}, Valid Kmin Kmax q → (allNodes env q).length = points q + 1 := fun hq => by
      rw [allNodes_eq env _ hq.ne_nil, List.length_append, flatMap_length_localNodes]; rfl
    -- the trajectory `t ^ K`, sampled on `m`
    obtain ⟨r, hr⟩ : ∃ r : List (Fin d → ℝ), r = (allNodes env m).map fun t _ => t ^ v.K := ⟨_, rfl⟩
    have hrl : r.length = (allNodes env m).length := by rw [hr, List.length_map]
    have hsome : ∀ t, (eval env m t r 0 true).isSome := by
      intro t
      have hlt : intervalFind env m t < m.length := by
        have hml : 0 < m.length := List.length_pos_of_ne_nil hm.ne_nil
        have hf := interval_find_correct env hS Kmin Kmax m hm t
        rcases lt_or_ge t 0 with h | h
        · rw [hf.1 h]; exact hml
        · rcases lt_or_ge t 1 with h2 | h2
          · obtain ⟨v, b, hvb, -⟩ := (hf.2.2 h h2).1
            exact (List.getElem?_eq_some_iff.1 (spans_some hvb).1).1
          · rw [hf.2.1 h2]; omega
      have hs : (spans 1 m)[intervalFind env m t]? = some (m[intervalFind env m t], tauf m (intervalFind env m t)) := by
        rw [spans_getElem?, List.getElem?_eq_getElem hlt]; rfl
      obtain ⟨P, -, hP, -⟩ := eval_piece hB hS h1 hm hL r true (by rw [hrl, nl hm]; rfl) hs
      rw [hP t rfl]; rfl
    obtain ⟨r', hr'⟩ : ∃ r' : List (Fin d → ℝ), r' = (allNodes env m').map fun t => (eval env m t r 0 true).getD 0 := ⟨_, rfl⟩
    have hsamp : SampledAt (allNodes env m') true (fun t => eval env m t r 0 true) r' := by
      refine ⟨by simp [hr'], fun k t hk ht => ?_⟩
      rw [hr', List.getElem?_map, ht]
      obtain ⟨y, hy⟩ := Option.isSome_iff_exists.1 (hsome t)
      simp [hy]
    have hrl' : r'.length = nVals m' true := by rw [hr', List.length_map, nl hm']; rfl
    obtain ⟨P, hP1, -, hP3⟩ := eval_piece hB hS h1 hm' hL r' true hrl' hi'
    have hP1 := hP1 ⟨0, hd⟩
    rw [polyDeg, if_pos (Or.inl rfl)] at hP1
    have heq : ∀ t, w.tau0 < t → t < b' → (P ⟨0, hd⟩).eval t = t ^ v.K := by
      intro t h2 h3
      have hfi : intervalFind env m t = i :=
        ((interval_find_correct env hS Kmin Kmax m hm t).2.2 (by linarith [hord.2.2]) (by linarith [hord'.2.1])).2 i v b hi
          (by linarith) (by linarith)
      have e1 := eval_polynomial env hB Kmin Kmax m hm hL t r 0 i v b hfi hi true (Or.inl rfl) (fun _ => X ^ v.K)
        (fun _ => (natDegree_X_pow_le _)) (fun j hj => by
          have hnode := node_at h1 hm hL hi j hj
          rw [hr, List.getElem?_map, show ((m.take i).map Ival.K).sum = points (m.take i) from rfl, hnode]
          simp [toMesh, nodeExt])
      have e2 := hP3 t h2.le h3.le (Or.inl rfl)
      rw [h r r' hrl hsamp t, e1] at e2
      have := congrFun (Option.some.inj e2) ⟨0, hd⟩
      simpa using this.symm
    have hPX : P ⟨0, hd⟩ = X ^ v.K := by
      apply Polynomial.eq_of_infinite_eval_eq
      refine Set.Infinite.mono ?_ (Set.Ioo_infinite hord'.1)
      intro t ht
      simp only [Set.mem_setOf_eq, eval_pow, eval_X]
      exact heq t ht.1 ht.2
    rw [hPX, natDegree_X_pow] at hP1
    omega
  · intro hf r r' hr hs t
    exact transfer_exact env hB hS Kmin Kmax h1 m m' hm hm' hL hf r r' true (by simpa using hr) hs t

end Verif.Mesh
