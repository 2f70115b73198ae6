import Verif.Proofs.MeshRound
import Verif.Proofs.MeshNodes
import Verif.Proofs.ASIFRound

/-!
# C114: the mesh in binary floating point arithmetic
-/

set_option linter.unusedSectionVars false

namespace Verif.Mesh

variable {F : Type*} [Field F] [LinearOrder F] [IsStrictOrderedRing F] {fl : F → F} {u : F}

/-! ### From the invariant to the specification -/

theorem spans_chain (R : F → F → Prop) [IsTrans F R] (b : F) (m : Mesh F) (h : ∀ s ∈ spans b m, R s.1.tau0 s.2) :
    (m.map Ival.tau0).Pairwise R ∧ ∀ v ∈ m, R v.tau0 b := by
  induction m with
  | nil => simp
  | cons v m ih =>
    rw [spans_cons] at h
    obtain ⟨h1, h2⟩ := ih fun s hs => h s (by simp [hs])
    have hv : R v.tau0 (headOr b m) := h (v, headOr b m) (by simp)
    cases m with
    | nil => simpa [headOr] using hv
    | cons w m =>
      have hw : ∀ x ∈ (w :: m), R v.tau0 x.tau0 := by
        intro x hx
        rcases List.mem_cons.1 hx with rfl | hx
        · exact hv
        · rw [List.map_cons, List.pairwise_cons] at h1
          exact _root_.trans (r := R) hv (h1.1 _ (List.mem_map_of_mem hx))
      refine ⟨?_, ?_⟩
      · rw [List.map_cons, List.pairwise_cons]
        refine ⟨?_, h1⟩
        intro a ha
        obtain ⟨x, hx, rfl⟩ := List.mem_map.1 ha
        exact hw x hx
      · intro x hx
        rcases List.mem_cons.1 hx with rfl | hx
        · exact _root_.trans (r := R) hv (h2 w (by simp))
        · exact h2 x hx

theorem headOr_zero {m : Mesh F} (h : headOr 1 m = 0) : (m.map Ival.tau0).head? = some 0 := by
  cases m with
  | nil => simp [headOr] at h
  | cons v m => simpa [headOr] using h

theorem Kept.of_mem {Kmin Kmax : ℕ} {d : F} {m : Mesh F} (h : Kept fl Kmin Kmax d m) {v : Ival F} (hv : v ∈ m) :
    ∃ b, (v, b) ∈ spans 1 m := by
  have := spans_fst 1 m
  rw [← this, List.mem_map] at hv
  obtain ⟨⟨w, b⟩, h1, rfl⟩ := hv
  exact ⟨b, h1⟩

theorem Kept.ordered (hb : Binary fl u) {Kmin Kmax : ℕ} {d : F} {m : Mesh F} (h : Kept fl Kmin Kmax d m) : Ordered fl Kmin Kmax m := by
  obtain ⟨h1, h2⟩ := spans_chain (· ≤ ·) 1 m fun s hs => (h.good s hs).le
  refine ⟨headOr_zero h.starts, h1, h2, ?_, ?_, ?_⟩
  · intro v hv
    obtain ⟨b, hb⟩ := h.of_mem hv
    exact (h.good _ hb).degree
  · intro v hv
    obtain ⟨b, hb⟩ := h.of_mem hv
    exact (h.good _ hb).ra
  · intro s hs
    obtain ⟨ra, rb, g1, g2, -, -, g3 | g3, -⟩ := h.good s hs
    · rw [g3, sub_zero, rb]
    · exact hb.close _ _ g1 ra rb g2 g3

theorem Kept.valid {Kmin Kmax : ℕ} {d : F} (hd : 0 < d) {m : Mesh F} (h : Kept fl Kmin Kmax d m) : Valid Kmin Kmax m := by
  obtain ⟨h1, h2⟩ := spans_chain (· < ·) 1 m fun s hs => by
    have := (h.good s hs).wide
    linarith
  refine ⟨headOr_zero h.starts, h1, h2, ?_⟩
  intro v hv
  obtain ⟨b, hb⟩ := h.of_mem hv
  exact (h.good _ hb).degree

theorem start_kept (hb : Binary fl u) {N : ℕ} (hint : ∀ k : ℕ, k ≤ N → fl (k : F) = k) (hu : 4 * N * u ≤ 1) (hN : 2 ≤ N) {Kmin Kmax : ℕ}
    (hKK : Kmin ≤ Kmax) {m : Mesh F} {d : F} (h : Start fl Kmin Kmax N m d) :
    0 < d ∧ Kept fl Kmin Kmax 0 m ∧ (8 * u ≤ d → Kept fl Kmin Kmax d m) := by
  have f1 : fl 1 = 1 := by simpa using hint 1 (by omega)
  have g1 : ∀ k, Kmin ≤ k → k ≤ Kmax + 1 → Good fl Kmin Kmax 1 ((⟨k, 0⟩ : Ival F), 1) := fun k h1 h2 =>
    ⟨hb.zero, f1, le_rfl, zero_le_one, le_rfl, by simp, Or.inl rfl, h1, h2⟩
  have k1 : ∀ k, Kmin ≤ k → k ≤ Kmax + 1 → Kept fl Kmin Kmax 1 [⟨k, 0⟩] := fun k h1 h2 =>
    ⟨rfl, by simpa [spans] using g1 k h1 h2⟩
  cases h with
  | one => exact ⟨one_pos, (k1 _ le_rfl (by omega)).weaken zero_le_one, fun _ => k1 _ le_rfl (by omega)⟩
  | few n k h1 h2 h3 => exact ⟨one_pos, (k1 _ h1 h2).weaken zero_le_one, fun _ => k1 _ h1 h2⟩
  | many n k h1 h2 h3 h4 =>
    have h0 : (0 : F) < n := by positivity
    have he : ((List.range n).map fun i : ℕ => (⟨k, fl (fl (i : F) * fl (1 / fl (n : F)))⟩ : Ival F)) = parts fl n k k 0 1 := by
      unfold parts cut
      rw [List.range_eq_range']
      apply List.map_congr_left
      intro i hi
      rw [List.mem_range'_1] at hi
      rw [hint i (by omega), hint n h4, sub_zero, f1, zero_add, hb.idem, ite_self]
    have hh : headOr 1 (parts fl n k k (0 : F) 1) = 0 := by
      obtain ⟨l, rfl⟩ : ∃ l, n = l + 1 := ⟨n - 1, by omega⟩
      simp [parts, List.range'_succ, headOr, cut_zero hb hb.zero]
    have hu' : 4 * n * u ≤ 1 := by
      have : (n : F) ≤ N := by exact_mod_cast h4
      have := mul_le_mul_of_nonneg_right this hb.nonneg
      linarith
    rw [he]
    refine ⟨by positivity, ⟨hh, ?_⟩, fun hd => ⟨hh, ?_⟩⟩
    · exact parts_good hb h3 le_rfl hu' (hint n h4) (d := 1) (Or.inl ⟨rfl, zero_le_one⟩) ⟨h1, h2⟩ (g1 k h1 h2) ⟨h1, h2⟩
    · refine parts_good hb h3 le_rfl hu' (hint n h4) (d := 1) (Or.inr ⟨hd, ?_, by positivity⟩) ⟨h1, h2⟩ (g1 k h1 h2) ⟨h1, h2⟩
      rw [mul_one_div_cancel (by positivity)]

/-! ### Histories -/

/-- The constructors make the meshes of `Start`. -/
theorem uniformR_start {Kmin Kmax n k N : ℕ} (hn : n ≤ N) {m : Mesh F} (h : uniformR fl Kmin Kmax n k = some m) :
    Start fl Kmin Kmax N m (if n < 2 then 1 else 1 / (2 * n)) := by
  unfold uniformR at h
  by_cases hk : Kmin ≤ k ∧ k ≤ Kmax + 1
  · rw [if_pos hk, Option.some_inj] at h
    subst h
    by_cases h2 : n < 2
    · rw [if_pos h2, if_pos h2]
      exact .few n k hk.1 hk.2 h2
    · rw [if_neg h2, if_neg h2]
      exact .many n k hk.1 hk.2 (by omega) hn
  · rw [if_neg hk] at h
    simp at h

/-- **C114.** In binary floating point arithmetic, for every history of mesh operations that cut intervals into at most `N` parts
(`4 N u ≤ 1`; every `N` up to `2^51` for `double`): the breakpoints start at 0 and are in nondecreasing order up to 1, they are
representable, the widths of all intervals are computed without error, and all degrees are in range. If moreover the history has so
few refinements `r` that `8 u (2 N)^r` is at most the smallest width of the initial mesh, no interval is empty: every one is at least
`d / (2 N)^r` wide. (`double`, `Mesh()`, `N = 16`: ten refinements.)

Missing from the property: without a bound on the number of refinements intervals do become empty (`mesh_rounded_collapses`). -/
theorem mesh_rounded_partial (hb : Binary fl u) {N : ℕ} (hint : ∀ k : ℕ, k ≤ N → fl (k : F) = k) (hu : 4 * N * u ≤ 1) (hN : 2 ≤ N)
    {Kmin Kmax : ℕ} (hK : 1 ≤ Kmin) (hKK : Kmin ≤ Kmax) (env : Env F) {m0 m : Mesh F} {d : F} (hs : Start fl Kmin Kmax N m0 d)
    (ops : List (Op F)) (ho : ∀ o ∈ ops, o.AsksAtMost env Kmax (N * Kmin)) (hr : runR fl env Kmin Kmax m0 ops = some m) :
    Ordered fl Kmin Kmax m ∧
      (8 * u * (2 * N) ^ refinements ops ≤ d →
        Valid Kmin Kmax m ∧ ∀ s ∈ spans 1 m, d / (2 * N) ^ refinements ops ≤ s.2 - s.1.tau0) := by
  obtain ⟨d0, h0, h1⟩ := start_kept hb hint hu hN hKK hs
  refine ⟨(runR_kept hb hint hu hK hKK hN env ops ho h0 hr).ordered hb, fun hd => ?_⟩
  have hN' : (1 : F) ≤ 2 * N := by
    have : (2 : F) ≤ N := by exact_mod_cast hN
    linarith
  have hp : (1 : F) ≤ (2 * N) ^ refinements ops := one_le_pow₀ hN'
  have h8 : 8 * u ≤ d := (le_mul_of_one_le_right (by have := hb.nonneg; positivity) hp).trans hd
  have := runR_wide hb hint hu hK hKK hN env ops d0 ho hd (h1 h8) hr
  exact ⟨this.valid (by positivity), fun s hs => (this.good s hs).wide⟩

/-! ### Without rounding the model is the exact one -/

theorem splitLoopR_id (Kmin i : ℕ) (tau0 taum : F) (n : ℕ) (m : Mesh F) :
    splitLoopR id Kmin i tau0 taum n m = splitLoop Kmin i tau0 taum n m := by
  induction n generalizing m with
  | zero => rfl
  | succ n ih =>
    cases n with
    | zero => rfl
    | succ n => rw [splitLoopR, splitLoop, ih]; rfl

theorem refinePhR_id (Kmin Kmax : ℕ) (m : Mesh F) (i D : ℕ) : refinePhR id Kmin Kmax m i D = refinePh Kmin Kmax m i D := by
  unfold refinePhR refinePh
  simp only [splitLoopR_id, id_eq]
  rfl

theorem refineErrorsLoopR_id (env : Env F) (Kmin Kmax : ℕ) (target : F) (l : List (ℕ × F)) (m : Mesh F) :
    refineErrorsLoopR id env Kmin Kmax target l m = refineErrorsLoop env Kmin Kmax target l m := by
  induction l generalizing m with
  | nil => rfl
  | cons x l ih =>
    obtain ⟨i, e⟩ := x
    have : refineErrorsStepR id env Kmin Kmax target m i e = refineErrorsStep env Kmin Kmax target m i e := by
      unfold refineErrorsStepR refineErrorsStep
      simp only [refinePhR_id]
      rfl
    rw [refineErrorsLoopR, refineErrorsLoop, this]
    cases refineErrorsStep env Kmin Kmax target m i e with
    | none => rfl
    | some m' => exact ih m'

theorem runR_id (env : Env F) (Kmin Kmax : ℕ) (ops : List (Op F)) (m : Mesh F) : runR id env Kmin Kmax m ops = run env Kmin Kmax m ops := by
  induction ops generalizing m with
  | nil => rfl
  | cons o ops ih =>
    have : stepR id env Kmin Kmax m o = step env Kmin Kmax m o := by
      cases o with
      | refinePh i D => exact refinePhR_id Kmin Kmax m i D
      | refineErrors errs target =>
        unfold stepR step refineErrorsR refineErrors
        simp only [refineErrorsLoopR_id]
      | setNColloc i K => rfl
      | increaseDegrees => rfl
      | decreaseDegrees => rfl
    rw [runR, run, this]
    cases step env Kmin Kmax m o with
    | none => rfl
    | some m' => exact ih m'

/-! ### Nodes, weights, matrices -/

theorem Ordered.span (hb : Binary fl u) (h1 : fl 1 = 1) {Kmin Kmax : ℕ} {m : Mesh F} (h : Ordered fl Kmin Kmax m) {i : ℕ} {v : Ival F}
    (hv : m[i]? = some v) : v ∈ m ∧ v.tau0 ≤ tauf m i ∧ fl (tauf m i) = tauf m i ∧ fl (tauf m i - v.tau0) = tauf m i - v.tau0 := by
  have hm : v ∈ m := List.mem_of_getElem? hv
  have hsp : (v, tauf m i) ∈ spans 1 m := by
    apply List.mem_of_getElem? (i := i)
    rw [spans_getElem?, hv]; rfl
  refine ⟨hm, ?_, ?_, h.widths _ hsp⟩
  · unfold tauf
    cases hw : m[i + 1]? with
    | none => exact h.below v hm
    | some w =>
      have := List.pairwise_iff_getElem.1 h.order i (i + 1)
      obtain ⟨a1, a2⟩ := List.getElem?_eq_some_iff.1 hv
      obtain ⟨b1, b2⟩ := List.getElem?_eq_some_iff.1 hw
      have := this (by simpa using a1) (by simpa using b1) (by omega)
      simpa [a2, b2] using this
  · unfold tauf
    cases hw : m[i + 1]? with
    | none => exact h1
    | some w => exact h.rep w (List.mem_of_getElem? hw)

/-- The nodes of an interval start exactly at its first breakpoint, end exactly at the next one, and are in nondecreasing order. -/
theorem interval_nodes_rounded (hb : Binary fl u) (h1 : fl 1 = 1) {Kmin Kmax : ℕ} {m : Mesh F} (h : Ordered fl Kmin Kmax m)
    (env : Env F) {i : ℕ} {v : Ival F} (hv : m[i]? = some v) (hK : 1 ≤ v.K) (hfirst : env.node v.K 0 = -1)
    (hinc : ∀ i j, i < j → j < v.K → env.node v.K i < env.node v.K j) (hbel : ∀ i, i < v.K → env.node v.K i < 1) :
    (intervalNodesR fl env m i).length = v.K + 1 ∧ (intervalNodesR fl env m i)[0]? = some v.tau0 ∧
      (intervalNodesR fl env m i)[v.K]? = some (tauf m i) ∧ (intervalNodesR fl env m i).Pairwise (· ≤ ·) := by
  obtain ⟨hm, hle, rb, hw⟩ := h.span hb h1 hv
  have hal : fl (fl (tauf m i - v.tau0) / 2) = (tauf m i - v.tau0) / 2 := by rw [hw, hb.half hw]
  unfold intervalNodesR
  rw [hv]
  simp only [hal]
  refine ⟨by simp, ?_, ?_, ?_⟩
  · simp [nodeExt, show 0 < v.K by omega, hfirst, hb.zero, h.rep v hm]
  · have h2 : fl 2 = 2 := by simpa [h1] using hb.double 1
    have : nodeExt env v.K v.K + 1 = 2 := by simp [nodeExt]; norm_num
    simp [this, h2, hw, rb]
  · rw [List.pairwise_map, List.pairwise_iff_getElem]
    intro j k hj hk hjk
    simp only [List.getElem_range]
    have hn : nodeExt env v.K j ≤ nodeExt env v.K k := by
      unfold nodeExt
      simp only [List.length_range] at hj hk
      have hj' : j < v.K := by omega
      rw [if_pos hj']
      split_ifs with hk'
      · exact (hinc j k hjk hk').le
      · exact (hbel j hj').le
    refine hb.mono (add_le_add le_rfl (hb.mono (mul_le_mul_of_nonneg_left (hb.mono (by linarith)) ?_)))
    linarith

/-- The quadrature weights and the factor of the differentiation matrix carry one rounding error each. -/
theorem weights_rounded (hb : Binary fl u) (h1 : fl 1 = 1) {Kmin Kmax : ℕ} {m : Mesh F} (h : Ordered fl Kmin Kmax m)
    (env : Env F) {i : ℕ} {v : Ival F} (hv : m[i]? = some v) :
    (∀ j ≤ v.K, ∃ x y, (intervalWeightsR fl env m i)[j]? = some x ∧ (intervalWeights env m i)[j]? = some y ∧ |x - y| ≤ u * |y|) ∧
      (diffmatScaleR fl v.tau0 (tauf m i) = none ↔ tauf m i = v.tau0) ∧
      ∀ x, diffmatScaleR fl v.tau0 (tauf m i) = some x →
        |x - diffmatScale v.tau0 (tauf m i)| ≤ u * |diffmatScale v.tau0 (tauf m i)| := by
  obtain ⟨hm, hle, rb, hw⟩ := h.span hb h1 hv
  have hal : fl (fl (tauf m i - v.tau0) / 2) = (tauf m i - v.tau0) / 2 := by rw [hw, hb.half hw]
  refine ⟨?_, ?_, ?_⟩
  · intro j hj
    unfold intervalWeightsR intervalWeights
    rw [hv]
    simp only [hal]
    refine ⟨_, _, by simp [Nat.lt_succ_iff.2 hj]; rfl, by simp [Nat.lt_succ_iff.2 hj], hb.err _⟩
  · unfold diffmatScaleR
    simp only [hw]
    split_ifs with h0
    · simp [sub_eq_zero.1 h0]
    · simp only [reduceCtorEq, false_iff]
      exact fun h => h0 (by rw [h, sub_self])
  · intro x hx
    unfold diffmatScaleR at hx
    simp only [hw] at hx
    split_ifs at hx with h0
    rw [Option.some_inj] at hx
    rw [← hx]
    exact hb.err _

theorem Ordered.ne_nil {Kmin Kmax : ℕ} {m : Mesh F} (h : Ordered fl Kmin Kmax m) : m ≠ [] := by
  rintro rfl
  simpa using h.starts

/-- All nodes of the mesh: one per collocation point and one at the end, from exactly 0 to exactly 1, in nondecreasing order. -/
theorem all_nodes_rounded (hb : Binary fl u) (h1 : fl 1 = 1) {Kmin Kmax : ℕ} (hK : 1 ≤ Kmin) {m : Mesh F} (h : Ordered fl Kmin Kmax m)
    (env : Env F) (hL : ∀ K, Kmin ≤ K → K ≤ Kmax + 1 → IsLGR env K) :
    (allNodesR fl env m).length = points m + 1 ∧ (allNodesR fl env m).head? = some 0 ∧ (allNodesR fl env m).getLast? = some 1 ∧
      (allNodesR fl env m).Pairwise (· ≤ ·) := by
  have key : ∀ i v, m[i]? = some v → (intervalNodesR fl env m i).length = v.K + 1 ∧ (intervalNodesR fl env m i)[0]? = some v.tau0 ∧
      (intervalNodesR fl env m i)[v.K]? = some (tauf m i) ∧ (intervalNodesR fl env m i).Pairwise (· ≤ ·) := by
    intro i v hv
    have hd := h.degree v (List.mem_of_getElem? hv)
    have hl := hL v.K hd.1 hd.2
    exact interval_nodes_rounded hb h1 h env hv (by omega) hl.first hl.increasing hl.below
  have hin : ∀ i v, m[i]? = some v → ∀ x ∈ intervalNodesR fl env m i, v.tau0 ≤ x ∧ x ≤ tauf m i := by
    intro i v hv x hx
    obtain ⟨k1, k2, k3, k4⟩ := key i v hv
    obtain ⟨j, hj, rfl⟩ := List.getElem_of_mem hx
    rw [List.pairwise_iff_getElem] at k4
    obtain ⟨a1, a2⟩ := List.getElem?_eq_some_iff.1 k2
    obtain ⟨b1, b2⟩ := List.getElem?_eq_some_iff.1 k3
    constructor
    · rcases Nat.eq_zero_or_pos j with rfl | h0
      · exact a2.symm.le
      · rw [← a2]; exact k4 0 j a1 hj h0
    · rcases (show j ≤ v.K by omega).eq_or_lt with rfl | h0
      · exact b2.le
      · rw [← b2]; exact k4 j v.K hj b1 h0
  obtain ⟨l, hl⟩ : ∃ l, m.length = l + 1 := by
    have := List.length_pos_iff.2 h.ne_nil
    exact ⟨m.length - 1, by omega⟩
  refine ⟨?_, ?_, ?_, ?_⟩
  · have h2 : (allNodesR fl env m).length = (allNodes env m).length := by
      unfold allNodesR allNodes
      rw [List.length_flatMap, List.length_flatMap]
      congr 1
      apply List.map_congr_left
      intro i _
      rw [List.length_take, List.length_take]
      unfold intervalNodesR intervalNodes
      cases m[i]? <;> simp
    rw [h2, allNodes_eq env m h.ne_nil, List.length_append, List.length_flatMap]
    have h3 : ((spans 1 m).map fun p => (localNodes env p).length) = m.map Ival.K := by
      conv_rhs => rw [← spans_fst 1 m, List.map_map]
      apply List.map_congr_left
      intro p _
      simp [localNodes]
    rw [h3]
    rfl
  · unfold allNodesR
    rw [hl, List.range_succ_eq_map, List.flatMap_cons]
    obtain ⟨v, hv⟩ : ∃ v, m[0]? = some v := ⟨m[0], List.getElem?_eq_getElem (by omega)⟩
    obtain ⟨k1, k2, -, -⟩ := key 0 v hv
    have hd := (h.degree v (List.mem_of_getElem? hv)).1
    have ht : 1 ≤ nTake m 0 := by
      unfold nTake
      rw [hv]
      simp only
      split_ifs <;> omega
    have hz : v.tau0 = 0 := by
      have := h.starts
      rw [List.head?_eq_getElem?, List.getElem?_map, hv] at this
      simpa using this
    rw [List.head?_append, List.head?_eq_getElem?, List.getElem?_take_of_lt (by omega), k2, hz]
    rfl
  · unfold allNodesR
    rw [hl, List.range_succ, List.flatMap_append, List.flatMap_singleton, List.getLast?_append]
    obtain ⟨v, hv⟩ : ∃ v, m[l]? = some v := ⟨m[l], List.getElem?_eq_getElem (by omega)⟩
    obtain ⟨k1, -, k3, -⟩ := key l v hv
    have ht : nTake m l = v.K + 1 := by
      unfold nTake
      rw [hv]
      simp [hl]
    have hf : tauf m l = 1 := by
      unfold tauf
      rw [List.getElem?_eq_none (by omega)]
    rw [ht, ← k1, List.take_length, List.getLast?_eq_getElem?, k1, Nat.add_sub_cancel, k3, hf]
    rfl
  · unfold allNodesR
    rw [List.pairwise_flatMap]
    constructor
    · intro i hi
      rw [List.mem_range] at hi
      exact (key i m[i] (List.getElem?_eq_getElem hi)).2.2.2.sublist (List.take_sublist _ _)
    · rw [List.pairwise_iff_getElem]
      intro i j hi hj hij x hx y hy
      simp only [List.length_range, List.getElem_range] at hi hj hx hy
      have hx' := (hin i m[i] (List.getElem?_eq_getElem hi) x (List.mem_of_mem_take hx)).2
      have hy' := (hin j m[j] (List.getElem?_eq_getElem hj) y (List.mem_of_mem_take hy)).1
      refine hx'.trans (le_trans ?_ hy')
      unfold tauf
      rw [List.getElem?_eq_getElem (show i + 1 < m.length by omega)]
      simp only
      rcases (show i + 1 ≤ j by omega).eq_or_lt with rfl | hlt
      · exact le_rfl
      · have := List.pairwise_iff_getElem.1 h.order (i + 1) j (by simp; omega) (by simpa using hj) hlt
        simpa using this

/-! ### Binary floating point numbers -/

open Verif.QP

theorem nearest_neg (y : ℚ) : nearest (-y) = -nearest y := by
  by_cases hi : (⌊y⌋ : ℚ) = y
  · rw [← hi, ← Int.cast_neg, nearest_int, nearest_int]
  · have h1 := lt_of_le_of_ne (Int.floor_le y) hi
    have h2 := Int.lt_floor_add_one y
    have hf : ⌊-y⌋ = -⌊y⌋ - 1 := by
      rw [Int.floor_eq_iff]
      push_cast
      constructor <;> linarith
    unfold nearest
    rw [hf]
    push_cast
    split_ifs <;> first | omega | (exfalso; linarith)

theorem flBits_odd (p : ℕ) (x : ℚ) : flBits p (-x) = -flBits p x := by
  unfold flBits
  by_cases h : x = 0
  · simp [h]
  · have hu : ulp p (-x) = ulp p x := by simp [ulp]
    rw [if_neg h, if_neg (neg_ne_zero.2 h), hu, neg_div, nearest_neg]
    push_cast
    ring

theorem log_double {x : ℚ} (hx : 0 < x) : Int.log 2 (2 * x) = Int.log 2 x + 1 := by
  have h2 : (1 : ℕ) < 2 := by norm_num
  have hx2 : 0 < 2 * x := by linarith
  apply le_antisymm
  · have := Int.lt_zpow_succ_log_self h2 x
    have : Int.log 2 (2 * x) < Int.log 2 x + 1 + 1 := by
      rw [← Int.lt_zpow_iff_log_lt h2 hx2, zpow_add_one₀ (by norm_num)]
      push_cast at this ⊢
      linarith
    omega
  · rw [← Int.zpow_le_iff_le_log h2 hx2, zpow_add_one₀ (by norm_num)]
    have := Int.zpow_log_le_self h2 hx
    push_cast at this ⊢
    linarith

theorem flBits_double (p : ℕ) (x : ℚ) : flBits p (2 * x) = 2 * flBits p x := by
  unfold flBits
  by_cases h : x = 0
  · simp [h]
  · have hu : ulp p (2 * x) = 2 * ulp p x := by
      unfold ulp
      rw [abs_mul, abs_two, log_double (abs_pos.2 h), show Int.log 2 |x| + 1 - (p : ℤ) = Int.log 2 |x| - p + 1 by ring,
        zpow_add_one₀ (by norm_num)]
      ring
    rw [if_neg h, if_neg (mul_ne_zero two_ne_zero h), hu, mul_div_mul_left _ _ two_ne_zero]
    ring

theorem flBits_nat (p k : ℕ) (hk : k ≤ 2 ^ (p + 1)) : flBits p (k : ℚ) = k := by
  simpa using Verif.EKF.flBits_short p k hk 0

/-- Rounding to nearest, ties to even, with `p + 1` bits is binary floating point arithmetic. -/
theorem flBits_binary (p : ℕ) : Binary (flBits p) (1 / 2 ^ (p + 1)) where
  nonneg := by positivity
  err := flBits_err p
  mono := flBits_mono p
  idem := by
    intro a
    rcases le_total 0 a with h | h
    · exact (Verif.ASIF.floatArith_subtracts p).idem a h
    · have := (Verif.ASIF.floatArith_subtracts p).idem (-a) (by linarith)
      change flBits p (flBits p (-a)) = flBits p (-a) at this
      rw [flBits_odd, flBits_odd, neg_inj] at this
      exact this
  double := flBits_double p
  close := fun a b => (Verif.ASIF.floatArith_subtracts p).close a b

/-! ### Cases -/

/-- The last interval is refined `n` times, each time into three parts (`Kmin = 5`, 11 points). -/
def lastSplits (n : ℕ) : List (Op ℚ) := (List.range n).map fun k => Op.refinePh (2 * k) 11

/-- **The property is false**: in `double` arithmetic, 34 refinements of the last interval of `Mesh<5, 10>()` leave an interval of width
zero, whose differentiation matrix has infinite factors; in exact arithmetic all intervals have positive width (`mesh_invariant`, C15). -/
theorem mesh_rounded_collapses (env : Env ℚ) :
    ∃ m, runR (flBits 52) env 5 10 (single 5) (lastSplits 34) = some m ∧
      ∃ s ∈ spans 1 m, s.2 = s.1.tau0 ∧ diffmatScaleR (flBits 52) s.1.tau0 s.2 = none := by
  have key : ∃ m, (lastSplits 34).foldl (fun o op => o.bind fun m => match op with
      | .refinePh i D => refinePhR (flBits 52) 5 10 m i D
      | _ => none) (some (single 5)) = some m ∧
      ∃ s ∈ spans 1 m, s.2 = s.1.tau0 ∧ diffmatScaleR (flBits 52) s.1.tau0 s.2 = none := by
    have : (((lastSplits 34).foldl (fun o op => o.bind fun m => match op with
      | .refinePh i D => refinePhR (flBits 52) 5 10 m i D
      | _ => none) (some (single 5))).any fun m =>
        (spans 1 m).any fun s => decide (s.2 = s.1.tau0 ∧ diffmatScaleR (flBits 52) s.1.tau0 s.2 = none)) = true := by
      decide +kernel
    rw [Option.any_eq_true] at this
    obtain ⟨m, h1, h2⟩ := this
    rw [List.any_eq_true] at h2
    obtain ⟨s, h3, h4⟩ := h2
    exact ⟨m, h1, s, h3, by simpa using h4⟩
  obtain ⟨m, h1, h2⟩ := key
  refine ⟨m, ?_, h2⟩
  rw [← h1]
  have gen : ∀ (l : List ℕ) (o : Mesh ℚ), runR (flBits 52) env 5 10 o (l.map fun k => Op.refinePh (2 * k) 11) =
      (l.map fun k => (Op.refinePh (2 * k) 11 : Op ℚ)).foldl (fun o op => o.bind fun m => match op with
        | .refinePh i D => refinePhR (flBits 52) 5 10 m i D
        | _ => none) (some o) := by
    intro l
    induction l with
    | nil => intro o; rfl
    | cons k l ih =>
      intro o
      rw [List.map_cons, runR, List.foldl_cons]
      simp only [Option.bind_some]
      cases hs : refinePhR (flBits 52) 5 10 o (2 * k) 11 with
      | none =>
        simp only [stepR, hs]
        clear ih hs
        induction l with
        | nil => rfl
        | cons k l ih => simpa using ih
      | some m' => simp only [stepR, hs]; exact ih m'
  exact gen _ _

/-- With `double`, ten refinements of `Mesh()` with at most 16 parts are within the bound: no interval is narrower than `2^-50`. -/
theorem mesh_double_ten (env : Env ℚ) {Kmin Kmax : ℕ} (hK : 1 ≤ Kmin) (hKK : Kmin ≤ Kmax) {m : Mesh ℚ} (ops : List (Op ℚ))
    (ho : ∀ o ∈ ops, o.AsksAtMost env Kmax (16 * Kmin)) (h10 : refinements ops ≤ 10)
    (hr : runR (flBits 52) env Kmin Kmax (single Kmin) ops = some m) :
    Valid Kmin Kmax m ∧ ∀ s ∈ spans 1 m, 1 / 2 ^ 50 ≤ s.2 - s.1.tau0 := by
  have hp : (2 * ((16 : ℕ) : ℚ)) ^ refinements ops ≤ 2 ^ 50 := by
    calc (2 * ((16 : ℕ) : ℚ)) ^ refinements ops ≤ (2 * ((16 : ℕ) : ℚ)) ^ 10 := pow_le_pow_right₀ (by norm_num) h10
      _ = 2 ^ 50 := by norm_num
  obtain ⟨h1, h2⟩ := (mesh_rounded_partial (flBits_binary 52) (N := 16) (fun k hk => flBits_nat 52 k (by norm_num; omega)) (by norm_num)
    (by norm_num) hK hKK env Start.one ops ho hr).2 (by
      calc 8 * (1 / 2 ^ (52 + 1)) * (2 * ((16 : ℕ) : ℚ)) ^ refinements ops ≤ 8 * (1 / 2 ^ (52 + 1)) * 2 ^ 50 :=
            mul_le_mul_of_nonneg_left hp (by norm_num)
        _ ≤ 1 := by norm_num)
  refine ⟨h1, fun s hs => le_trans ?_ (h2 s hs)⟩
  exact one_div_le_one_div_of_le (by positivity) hp

/-- Such a history: degrees are set, the second of three parts is refined, degrees grow. -/
example : (runR (flBits 52) ⟨fun _ _ => 0, fun _ _ => 0, fun _ _ => 0, fun _ _ => none, fun _ _ _ => 7⟩ 5 10 (single 5)
    [.refinePh 0 11, .setNColloc 1 11, .refineErrors [1, 2, 0] (1 / 2), .increaseDegrees]).any (fun m =>
      m.length = 8 && (m[1]?.map Ival.tau0).any fun t => decide (t ≠ 1 / 9)) = true := by
  decide +kernel

/-- Such an initial mesh: ten intervals in `double` arithmetic; the breakpoints are not the exact ones. -/
example : Start (flBits 52) 5 10 16 ((List.range 10).map fun i : ℕ => ⟨5, flBits 52 (flBits 52 (i : ℚ) * flBits 52 (1 / flBits 52 ((10 : ℕ) : ℚ)))⟩)
    (1 / (2 * (10 : ℕ))) ∧ flBits 52 (flBits 52 (3 : ℚ) * flBits 52 (1 / flBits 52 10)) ≠ 3 / 10 :=
  ⟨.many 10 5 le_rfl (by norm_num) (by norm_num) (by norm_num), by decide +kernel⟩

end Verif.Mesh
