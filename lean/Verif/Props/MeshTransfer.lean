import Verif.Spec.MeshRefine
import Verif.Proofs.MeshTransfer

/-! # Resampling a trajectory on a refined mesh (C107) -/

namespace Verif.Mesh

open Polynomial Verif.NLP

/-- **C107, transfer.** Let `m'` be finer than `m` (every interval of `m'` in an interval of `m` of no higher degree), and let
`r'` be the values at the nodes of `m'` of the trajectory that `eval` makes of the values `r` on `m`. Then `eval` makes the same
trajectory of `r'` on `m'`: the two agree at every time, also outside `[0, 1]`. This holds for the states (`ext = true`, value at
the final time included) and for inputs and multipliers (`ext = false`). -/
theorem transfer_exact (env : Env ℝ) (hB : IsLagrange env) (hS : IsSearch env) (Kmin Kmax : ℕ) (h1 : 1 ≤ Kmin) (m m' : Mesh ℝ)
    (hm : Valid Kmin Kmax m) (hm' : Valid Kmin Kmax m') (hL : ∀ K, Kmin ≤ K → K ≤ Kmax + 1 → IsLGR env K) (hf : Finer m m')
    {d : ℕ} (r r' : List (Fin d → ℝ)) (ext : Bool) (hr : r.length + (if ext then 0 else 1) = (allNodes env m).length)
    (hr' : SampledAt (allNodes env m') ext (fun t => eval env m t r 0 ext) r') (t : ℝ) :
    eval env m' t r' 0 ext = eval env m t r 0 ext := by
  obtain ⟨hlen', hs⟩ := hr'
  have nl : ∀ {q : Mesh ℝ}, Valid Kmin Kmax q → (allNodes env q).length = points q + 1 := fun hq => by
    rw [allNodes_eq env _ hq.ne_nil, List.length_append, flatMap_length_localNodes]; rfl
  rw [nl hm] at hr
  rw [nl hm'] at hlen'
  have hr1 : r.length = nVals m ext := by
    unfold nVals; cases ext <;> simpa using hr
  have hr1' : r'.length = nVals m' ext := by
    unfold nVals; cases ext <;> simpa using hlen'
  -- the interval of `m'`
  have hfind' := interval_find_correct env hS Kmin Kmax m' hm' t
  have hfind := interval_find_correct env hS Kmin Kmax m hm t
  have hml' : 0 < m'.length := List.length_pos_of_ne_nil hm'.ne_nil
  have hlt' : intervalFind env m' t < m'.length := by
    rcases lt_or_ge t 0 with h | h
    · rw [hfind'.1 h]; exact hml'
    · rcases lt_or_ge t 1 with h2 | h2
      · obtain ⟨v, b, hvb, -⟩ := (hfind'.2.2 h h2).1
        exact (List.getElem?_eq_some_iff.1 (spans_some hvb).1).1
      · rw [hfind'.2.1 h2]; omega
  obtain ⟨i', hi'e⟩ : ∃ i', intervalFind env m' t = i' := ⟨_, rfl⟩
  rw [hi'e] at hlt'
  have hw : m'[i']? = some m'[i'] := List.getElem?_eq_getElem hlt'
  obtain ⟨w, hwd⟩ : ∃ w, m'[i'] = w := ⟨_, rfl⟩
  rw [hwd] at hw
  obtain ⟨b', hb'⟩ : ∃ b', tauf m' i' = b' := ⟨_, rfl⟩
  have hi' : (spans 1 m')[i']? = some (w, b') := by rw [spans_getElem?, hw, hb']; rfl
  have hord' := span_ordered hm' hi'
  -- the interval of `m`
  obtain ⟨⟨v, b⟩, hp, ha, hbb, hKK⟩ := hf (w, b') (List.mem_of_getElem? hi')
  simp only at ha hbb hKK
  obtain ⟨i, hi⟩ := List.mem_iff_getElem?.1 hp
  have hord := span_ordered hm hi
  have hend := span_end hm hi
  have hend' := span_end hm' hi'
  have hil := (List.getElem?_eq_some_iff.1 (spans_some hi).1).1
  -- it is the one that is looked up for `t`
  have hfi : intervalFind env m t = i := by
    rcases lt_or_ge t 0 with h | h
    · rw [hfind.1 h]
      have h0 : i' = 0 := by rw [← hi'e, hfind'.1 h]
      subst h0
      have hw0 : w.tau0 = 0 := by
        have := hm'.starts
        rw [List.head?_eq_getElem?, List.getElem?_map, hw] at this
        simpa using this
      have hv0 : v.tau0 ≤ 0 := by rw [← hw0]; exact ha
      have hz : (0 : ℝ) < b := lt_of_lt_of_le (by rw [← hw0]; exact hord'.1) hbb
      have e1 := ((interval_find_correct env hS Kmin Kmax m hm 0).2.2 le_rfl one_pos).2 i v b hi hv0 hz
      have hml : 0 < m.length := List.length_pos_of_ne_nil hm.ne_nil
      have hz0 : (spans 1 m)[0]? = some (m[0], tauf m 0) := by rw [spans_getElem?, List.getElem?_eq_getElem hml]; rfl
      have hs0 : m[0].tau0 = 0 := by
        have := hm.starts
        rw [List.head?_eq_getElem?, List.getElem?_map, List.getElem?_eq_getElem hml] at this
        simpa using this
      have e2 := ((interval_find_correct env hS Kmin Kmax m hm 0).2.2 le_rfl one_pos).2 0 _ _ hz0 hs0.le
        (by rw [← hs0]; exact (span_ordered hm hz0).1)
      rw [← e1, e2]
    · rcases lt_or_ge t 1 with h2 | h2
      · obtain ⟨v1, b1, hvb, h3, h4⟩ := (hfind'.2.2 h h2).1
        rw [hi'e, hi'] at hvb
        obtain ⟨rfl, rfl⟩ : w = v1 ∧ b' = b1 := by simpa using hvb
        exact (hfind.2.2 h h2).2 i v b hi (ha.trans h3) (h4.trans_le hbb)
      · rw [hfind.2.1 h2]
        have h3 : i' + 1 = m'.length := by rw [← hi'e, hfind'.2.1 h2]; omega
        have h4 : b = 1 := le_antisymm hord.2.1 (by rw [← hend'.2 h3]; exact hbb)
        have := hend.1 h4
        omega
  obtain ⟨P, hP1, hP2, hP3⟩ := eval_piece hB hS h1 hm hL r ext hr1 hi
  rw [hP2 t hfi]
  have hd' := hm'.degree w (List.mem_of_getElem? hw)
  have hK' := hL w.K hd'.1 hd'.2
  -- the samples
  have samp : ∀ j, j ≤ w.K → points (m'.take i') + j < r'.length →
      r'[points (m'.take i') + j]? = some fun c => (P c).eval (toMesh w.tau0 b' (nodeExt env w.K j)) := by
    intro j hj hlt
    have hn := node_at h1 hm' hL hi' j hj
    rw [← hs _ _ hlt hn]
    have hlo : w.tau0 ≤ toMesh w.tau0 b' (nodeExt env w.K j) ∧ toMesh w.tau0 b' (nodeExt env w.K j) ≤ b' ∧
        (j < w.K → toMesh w.tau0 b' (nodeExt env w.K j) < b') := by
      rcases Nat.lt_or_ge j w.K with h | h
      · have := (localNodes_bounds (p := (w, b')) hK' hord'.1).1 (toMesh w.tau0 b' (nodeExt env w.K j))
          (by simp only [localNodes, List.mem_map, List.mem_range]; exact ⟨j, h, by rw [nodeExt, if_pos h, toMesh]⟩)
        exact ⟨this.1, this.2.le, fun _ => this.2⟩
      · have hjK : j = w.K := by omega
        have e : toMesh w.tau0 b' (nodeExt env w.K j) = b' := by rw [nodeExt, if_neg (by omega), toMesh]; ring
        rw [e]
        exact ⟨hord'.1.le, le_rfl, fun h2 => absurd h2 (by omega)⟩
    refine hP3 _ (ha.trans hlo.1) (hlo.2.1.trans hbb) ?_
    cases ext with
    | true => exact Or.inl rfl
    | false =>
      right
      rcases Nat.lt_or_ge j w.K with h | h
      · exact lt_of_lt_of_le (hlo.2.2 h) hord'.2.1
      · refine lt_of_le_of_lt hlo.2.1 (lt_of_le_of_ne hord'.2.1 fun h3 => ?_)
        have := points_take_last hw (hend'.1 h3)
        rw [hr1', nVals] at hlt
        simp at hlt
        omega
  by_cases hext : ext = true ∨ i' + 1 < m'.length
  · have hdeg : ∀ c, (P c).natDegree ≤ w.K := fun c => (hP1 c).trans (by rw [polyDeg]; split_ifs <;> omega)
    have := eval_polynomial env hB Kmin Kmax m' hm' hL t r' 0 i' w b' hi'e hi' ext hext P hdeg (fun j hj => by
      refine samp j hj ?_
      rw [hr1', nVals]
      have hpt := points_take_add hw
      split_ifs with h
      · omega
      · have hl : i' + 1 < m'.length := by tauto
        have hnext : m'[i' + 1]? = some m'[i' + 1] := List.getElem?_eq_getElem hl
        have hd2 := hm'.degree _ (List.mem_of_getElem? hnext)
        have := points_take_add hnext
        rw [points_take_succ hw] at this
        omega)
    simpa using this
  · push Not at hext
    obtain ⟨he, hl⟩ := hext
    obtain rfl : ext = false := by simpa using he
    have hlast : i' + 1 = m'.length := by omega
    have hb1 : b = 1 := le_antisymm hord.2.1 (by rw [← hend'.2 hlast]; exact hbb)
    have hil2 := hend.1 hb1
    have hdeg : ∀ c, (P c).natDegree ≤ w.K - 1 := fun c => (hP1 c).trans (by rw [polyDeg, if_neg (by simp; omega)]; omega)
    have := eval_polynomial_last env hB Kmin Kmax m' hm' hL t r' 0 i' w b' hi'e hi' hlast (by omega) P hdeg (fun j hj => by
      have := samp j hj.le (by rw [hr1', nVals]; have := points_take_add hw; simp; omega)
      rw [nodeExt, if_pos hj] at this
      exact this)
    simpa using this

end Verif.Mesh
