import Verif.Proofs.MeshEnv
import Mathlib.Analysis.SpecialFunctions.Log.Basic

/-! # Mesh invariant, refinement and lookup (C15, C16, C17, C22) -/

set_option linter.unusedSectionVars false

namespace Verif.Mesh

open Polynomial

variable {F : Type*} [Field F] [LinearOrder F] [IsStrictOrderedRing F]

/-! ## C15 -/

theorem valid_single (Kmin Kmax : ℕ) (h : Kmin ≤ Kmax) : Valid Kmin Kmax (single Kmin : Mesh F) := by
  refine ⟨by simp [single], by simp [single], by simp [single], ?_⟩
  intro v hv
  simp only [single, List.mem_singleton] at hv
  subst hv; simp only; omega

theorem valid_uniform {Kmin Kmax n k : ℕ} {m : Mesh F} (h : uniform Kmin Kmax n k = some m) : Valid Kmin Kmax m := by
  unfold uniform at h
  split_ifs at h with h1 h2
  · obtain rfl := Option.some.inj h
    exact ⟨by simp, by simp, by simp, by simpa using h1⟩
  · obtain rfl := Option.some.inj h
    have he : ((List.range n).map fun i : ℕ => (⟨k, (i : F) * (1 / (n : F))⟩ : Ival F)) = equalParts n k k 0 1 := by
      simp [equalParts]
    rw [he]
    have hin := equalParts_inside (F := F) (lo := Kmin) (hi := Kmax + 1) (n := n) (K0 := k) (K := k) (a := 0) (b := 1)
      (by omega) one_pos h1 h1
    exact ⟨hin.start, hin.inc, fun v hv => (hin.mem v hv).2, hin.deg⟩

theorem valid_step {env : Env F} {Kmin Kmax : ℕ} (h1 : 1 ≤ Kmin) (h2 : Kmin ≤ Kmax) {m m' : Mesh F} {o : Op F}
    (h : Valid Kmin Kmax m) (hs : step env Kmin Kmax m o = some m') : Valid Kmin Kmax m' := by
  cases o with
  | refinePh i D => exact refinePh_valid h1 h2 h hs
  | refineErrors errs target =>
    simp only [step, refineErrors] at hs
    split_ifs at hs
    exact refineErrorsLoop_valid h1 h2 _ h hs
  | setNColloc i K =>
    simp only [step, setNColloc] at hs
    split at hs
    · cases hs
    · rename_i v hv
      split_ifs at hs with hk
      obtain rfl := Option.some.inj hs
      obtain ⟨A, B, rfl, rfl⟩ := getElem?_split m i v hv
      have := h.replace (R := [⟨K, v.tau0⟩]) (⟨by simp, by simp, by simpa using pairwise_tau h.increasing h.below,
        by simpa using hk⟩)
      simpa using this
  | increaseDegrees =>
    simp only [step] at hs
    obtain rfl := Option.some.inj hs
    have e : (increaseDegrees Kmax m).map Ival.tau0 = m.map Ival.tau0 := by simp [increaseDegrees, Function.comp_def]
    refine ⟨by rw [e]; exact h.starts, by rw [e]; exact h.increasing, ?_, ?_⟩
    · intro v hv
      simp only [increaseDegrees, List.mem_map] at hv
      obtain ⟨w, hw, rfl⟩ := hv
      exact h.below w hw
    · intro v hv
      simp only [increaseDegrees, List.mem_map] at hv
      obtain ⟨w, hw, rfl⟩ := hv
      have := h.degree w hw
      simp only; omega
  | decreaseDegrees =>
    simp only [step] at hs
    obtain rfl := Option.some.inj hs
    have e : (decreaseDegrees Kmin m).map Ival.tau0 = m.map Ival.tau0 := by simp [decreaseDegrees, Function.comp_def]
    refine ⟨by rw [e]; exact h.starts, by rw [e]; exact h.increasing, ?_, ?_⟩
    · intro v hv
      simp only [decreaseDegrees, List.mem_map] at hv
      obtain ⟨w, hw, rfl⟩ := hv
      exact h.below w hw
    · intro v hv
      simp only [decreaseDegrees, List.mem_map] at hv
      obtain ⟨w, hw, rfl⟩ := hv
      have := h.degree w hw
      simp only; omega

/-- **C15.** After any sequence of operations on a constructed mesh the start points begin at zero, increase strictly, stay
below one, and every degree is between `Kmin` and `Kmax + 1`. -/
theorem mesh_invariant (env : Env F) (Kmin Kmax : ℕ) (h1 : 1 ≤ Kmin) (h2 : Kmin ≤ Kmax) (m0 : Mesh F)
    (h0 : m0 = single Kmin ∨ ∃ n k, uniform Kmin Kmax n k = some m0) (ops : List (Op F)) (m : Mesh F)
    (hr : run env Kmin Kmax m0 ops = some m) :
    (m.map Ival.tau0).head? = some 0 ∧ (m.map Ival.tau0).Pairwise (· < ·) ∧ (∀ v ∈ m, 0 ≤ v.tau0 ∧ v.tau0 < 1) ∧
      ∀ v ∈ m, Kmin ≤ v.K ∧ v.K ≤ Kmax + 1 := by
  have hv0 : Valid Kmin Kmax m0 := by
    rcases h0 with rfl | ⟨n, k, h⟩
    · exact valid_single Kmin Kmax h2
    · exact valid_uniform h
  have hv : Valid Kmin Kmax m := by
    clear h0
    induction ops generalizing m0 with
    | nil => simp only [run] at hr; obtain rfl := Option.some.inj hr; exact hv0
    | cons o os ih =>
      simp only [run] at hr
      split at hr
      · cases hr
      · rename_i m1 hm1
        exact ih m1 hr (valid_step h1 h2 hv0 hm1)
  refine ⟨hv.starts, hv.increasing, fun v hm => ⟨?_, hv.below v hm⟩, hv.degree⟩
  have hs := hv.starts
  have hi := hv.increasing
  cases m with
  | nil => simp at hm
  | cons w m =>
    simp only [List.map_cons, List.head?_cons, Option.some.injEq] at hs
    rw [List.map_cons, List.pairwise_cons, hs] at hi
    rcases List.mem_cons.1 hm with rfl | hm
    · exact hs.ge
    · exact (hi.1 _ (List.mem_map_of_mem hm)).le

/-- **C15, progress.** With indices in range, one error per interval and degrees in range every operation returns. -/
theorem mesh_ops_return (env : Env F) (Kmin Kmax : ℕ) (h1 : 1 ≤ Kmin) (m : Mesh F) :
    (∀ i D, i < m.length → (refinePh Kmin Kmax m i D).isSome) ∧
    (∀ errs target, m.length = errs.length → (refineErrors env Kmin Kmax m errs target).isSome) ∧
    (∀ i K, i < m.length → Kmin ≤ K → K ≤ Kmax + 1 → (setNColloc Kmin Kmax m i K).isSome) := by
  refine ⟨fun i D hi => ?_, fun errs target hl => ?_, fun i K hi h3 h4 => ?_⟩
  · obtain ⟨A, B, hm, rfl⟩ := getElem?_split m i m[i] (by simp)
    rw [hm, refinePh_append _ _ _ h1]; rfl
  · rw [refineErrors_eq _ _ _ h1 _ _ _ hl]; rfl
  · simp [setNColloc, hi, h3, h4]

/-- A history on `Mesh<5, 10>`: split into ten, raise degrees, refine one interval, lower the degrees. -/
example : ((run ratEnv 5 10 (single 5) [.refinePh 0 50, .increaseDegrees, .refinePh 3 9, .decreaseDegrees]).map
    fun m => m.map fun v => (v.K, v.tau0)) =
      some [(5, 0), (5, 1 / 10), (5, 1 / 5), (8, 3 / 10), (5, 2 / 5), (5, 1 / 2), (5, 3 / 5), (5, 7 / 10), (5, 4 / 5), (5, 9 / 10)] := by
  norm_num [run, step, refinePh, single, splitLoop, tauf, increaseDegrees, decreaseDegrees, List.insertIdx,
    List.modifyTailIdx, List.modifyTailIdx.go]

/-! ## C16 -/

theorem equalParts_spans (n K0 K : ℕ) (hn : 1 ≤ n) (a b : F) :
    spans b (equalParts n K0 K a b) = (List.range n).map fun k : ℕ =>
      ((⟨if k = 0 then K0 else K, a + (k : F) * ((b - a) / (n : F))⟩ : Ival F), a + ((k : F) + 1) * ((b - a) / (n : F))) := by
  have hn' : (n : F) ≠ 0 := by exact_mod_cast (by omega : n ≠ 0)
  have key : ∀ k, k ≤ n → spans (a + (k : F) * ((b - a) / (n : F)))
      ((List.range k).map fun k : ℕ => (⟨if k = 0 then K0 else K, a + (k : F) * ((b - a) / (n : F))⟩ : Ival F)) =
      (List.range k).map fun k : ℕ =>
        ((⟨if k = 0 then K0 else K, a + (k : F) * ((b - a) / (n : F))⟩ : Ival F), a + ((k : F) + 1) * ((b - a) / (n : F))) := by
    intro k hk
    induction k with
    | zero => simp [spans]
    | succ k ih =>
      rw [List.range_succ, List.map_append, List.map_append, List.map_singleton, List.map_singleton, spans_concat,
        ih (by omega)]
      push_cast
      rfl
  have := key n le_rfl
  rw [show a + (n : F) * ((b - a) / (n : F)) = b by field_simp; ring] at this
  exact this

/-- **C16, partial.** `refine_ph(i, D)` replaces interval `i = [v.tau0, b)` and nothing else: by
`max(2, ceil(D / Kmin))` equal parts of it if `D` or the degree exceeds `Kmax`, by itself if `D` is below the degree, else by
itself with degree `D`. Missing from the full claim: in a split the first part keeps the old degree where the documentation
says `Kmin` (`refine_ph_first_part_differs`); the full claim holds when the old degree is `Kmin`. -/
theorem refine_ph_partial (Kmin Kmax : ℕ) (h1 : 1 ≤ Kmin) (m : Mesh F) (i D : ℕ) (v : Ival F) (b : F)
    (hi : (spans 1 m)[i]? = some (v, b)) :
    refinePh Kmin Kmax m i D = some (m.take i ++
      (if Kmax < D ∨ Kmax < v.K then equalParts (max 2 ((D + Kmin - 1) / Kmin)) v.K Kmin v.tau0 b
        else if D < v.K then [v] else [⟨D, v.tau0⟩]) ++ m.drop (i + 1)) ∧
    (v.K = Kmin → refinePh Kmin Kmax m i D = some (m.take i ++ refined Kmin Kmax D Kmin v b ++ m.drop (i + 1))) := by
  have hv : m[i]? = some v ∧ tauf m i = b := by
    rw [spans_getElem?] at hi
    cases hm : m[i]? with
    | none => simp [hm] at hi
    | some w => rw [hm] at hi; simp at hi; exact ⟨by rw [hi.1], hi.2⟩
  obtain ⟨A, B, rfl, rfl⟩ := getElem?_split m i v hv.1
  have hb : headOr 1 B = b := by rw [← hv.2, tauf_append]
  have := refinePh_append Kmin Kmax D h1 A v B
  rw [hb] at this
  have e1 : (A ++ v :: B).take A.length = A := by simp
  have e2 : (A ++ v :: B).drop (A.length + 1) = B := by rw [List.drop_append]; simp
  rw [e1, e2]
  refine ⟨this, fun hK => ?_⟩
  rw [this, hK]

/-- **C16, the equal parts.** They cover exactly the old interval: part `k` is `[a + k h, a + (k + 1) h)` with
`h = (b - a) / n`, and the last one ends at `b`. -/
theorem refine_ph_parts_cover (n K0 K : ℕ) (hn : 1 ≤ n) (a b : F) (k : ℕ) (hk : k < n) :
    (equalParts n K0 K a b).length = n ∧
    ((spans b (equalParts n K0 K a b))[k]?).map (fun p => (p.1.tau0, p.2)) =
      some (a + (k : F) * ((b - a) / (n : F)), a + ((k : F) + 1) * ((b - a) / (n : F))) ∧
    a + ((n - 1 : ℕ) + 1 : F) * ((b - a) / (n : F)) = b := by
  refine ⟨by simp [equalParts], ?_, ?_⟩
  · rw [equalParts_spans n K0 K hn]
    simp [hk]
  · have hn' : (n : F) ≠ 0 := by exact_mod_cast (by omega : n ≠ 0)
    have : ((n - 1 : ℕ) : F) + 1 = n := by exact_mod_cast Nat.sub_add_cancel hn
    rw [this]; field_simp; ring

/-- **C16, negation.** On `Mesh<5, 10>` with one interval of degree 8, `refine_ph(0, 11)` leaves degree 8 in the first
part: the documented result (all parts of degree `Kmin = 5`) is not what the code produces. -/
theorem refine_ph_first_part_differs :
    ∃ m : Mesh ℚ, Valid 5 10 m ∧ (spans 1 m)[0]? = some (⟨8, 0⟩, 1) ∧
      refinePh 5 10 m 0 11 = some [⟨8, 0⟩, ⟨5, 1 / 3⟩, ⟨5, 2 / 3⟩] ∧
      refinePh 5 10 m 0 11 ≠ some (m.take 0 ++ refined 5 10 11 5 ⟨8, 0⟩ 1 ++ m.drop 1) := by
  refine ⟨[⟨8, 0⟩], ⟨by simp, by simp, by simp, by simp⟩, rfl, ?_, ?_⟩
  · norm_num [refinePh, splitLoop, tauf, List.insertIdx, List.modifyTailIdx, List.modifyTailIdx.go]
  · norm_num [refinePh, splitLoop, tauf, List.insertIdx, List.modifyTailIdx, List.modifyTailIdx.go, refined, equalParts,
      List.range_succ]

/-- **C16, target reached.** If `D` is not below the old degree, the refined interval has at least `D` collocation points. -/
theorem refine_ph_reaches (Kmin Kmax D : ℕ) (h1 : 1 ≤ Kmin) (v : Ival F) (b : F) (hK : Kmin ≤ v.K) :
    (D ≤ points (refined Kmin Kmax D v.K v b) ∨ D < v.K) ∧ v.K ≤ points (refined Kmin Kmax D v.K v b) ∧
      ((v.K < D ∨ Kmax < v.K) → v.K < points (refined Kmin Kmax D v.K v b)) := by
  have hp : ∀ n, points (equalParts (n + 1) v.K Kmin v.tau0 b) = v.K + n * Kmin := by
    intro n
    rw [equalParts_succ, points]
    simp [Function.comp_def]
  unfold refined
  split_ifs with h2 h3
  · obtain ⟨n, hn⟩ : ∃ n, max 2 ((D + Kmin - 1) / Kmin) = n + 1 := ⟨max 2 ((D + Kmin - 1) / Kmin) - 1, by omega⟩
    have hn1 : 1 ≤ n := by omega
    have hdiv : D ≤ (n + 1) * Kmin := by
      have h4 : (D + Kmin - 1) / Kmin ≤ n + 1 := by omega
      have h5 := Nat.div_add_mod (D + Kmin - 1) Kmin
      have h6 := Nat.mod_lt (D + Kmin - 1) (by omega : 0 < Kmin)
      have h7 : Kmin * ((D + Kmin - 1) / Kmin) ≤ Kmin * (n + 1) := Nat.mul_le_mul_left _ h4
      have h8 : Kmin * (n + 1) = (n + 1) * Kmin := mul_comm _ _
      omega
    rw [hn, hp]
    have h9 : (n + 1) * Kmin = n * Kmin + Kmin := by ring
    have h10 : 1 ≤ n * Kmin := Nat.mul_pos hn1 h1
    refine ⟨Or.inl (by omega), by omega, fun _ => by omega⟩
  · exact ⟨Or.inr h3, by simp [points], fun h => by simp only [points, List.map_cons, List.map_nil, List.sum_cons, List.sum_nil]; omega⟩
  · simp only [points, List.map_cons, List.map_nil, List.sum_cons, List.sum_nil]
    omega

/-! ## C17 -/

/-- **C17.** With one error per interval, `refine_errors` returns the concatenation over the intervals `[v.tau0, b)` of: the
interval itself when its error is at most the target, else what `refine_ph` makes of that interval alone with target
degree `K + lround(log(e / target) / log K + 1)`. -/
theorem refine_errors_exact (env : Env F) (Kmin Kmax : ℕ) (h1 : 1 ≤ Kmin) (m : Mesh F) (errs : List F) (target : F)
    (hl : m.length = errs.length) :
    refineErrors env Kmin Kmax m errs target = some (((spans 1 m).zip errs).flatMap fun x =>
      if x.2 ≤ target then [x.1.1]
      else refined Kmin Kmax (x.1.1.K + env.growth x.1.1.K x.2 target) x.1.1.K x.1.1 x.1.2) := by
  rw [refineErrors_eq env Kmin Kmax h1 m errs target hl]
  congr 1
  apply List.flatMap_congr
  intro x _
  unfold refinedByError
  by_cases h : target < x.2
  · rw [if_pos h, if_neg (not_le.2 h)]
  · rw [if_neg h, if_pos (not_lt.1 h)]

/-- **C17, breakpoints.** Every old breakpoint is kept, in order. -/
theorem refine_errors_keeps_breakpoints (env : Env F) (Kmin Kmax : ℕ) (h1 : 1 ≤ Kmin) (m m' : Mesh F) (errs : List F)
    (target : F) (hr : refineErrors env Kmin Kmax m errs target = some m') :
    (m.map Ival.tau0).Sublist (m'.map Ival.tau0) := by
  have hl : m.length = errs.length := by
    by_contra h
    simp [refineErrors, h] at hr
  rw [refineErrors_eq env Kmin Kmax h1 m errs target hl] at hr
  obtain rfl := Option.some.inj hr
  have hsub : ∀ (l : List (Ival F × F)) (es : List F), l.length = es.length →
      ((l.map Prod.fst).map Ival.tau0).Sublist
        ((((l.zip es).flatMap (refinedByError env Kmin Kmax target))).map Ival.tau0) := by
    intro l
    induction l with
    | nil => intro es _; simp
    | cons p l ih =>
      intro es hes
      cases es with
      | nil => simp at hes
      | cons e es =>
        have := ih es (by simpa using hes)
        simp only [List.map_cons, List.zip_cons_cons, List.flatMap_cons, List.map_append]
        have hhead : ∃ r, (refinedByError env Kmin Kmax target (p, e)).map Ival.tau0 = p.1.tau0 :: r := by
          have h0 := refinedByError_head env Kmin Kmax target p.2 p.1 e []
          rw [List.append_nil] at h0
          generalize hg : refinedByError env Kmin Kmax target ((p.1, p.2), e) = g at h0
          cases g with
          | nil =>
            exfalso
            unfold refinedByError refined equalParts at hg
            split_ifs at hg
            · have := congrArg List.length hg
              simp at this
          | cons w g => exact ⟨g.map Ival.tau0, by simp only [List.map_cons]; rw [show w.tau0 = p.1.tau0 from h0]⟩
        obtain ⟨r, hr⟩ := hhead
        rw [hr, List.cons_append]
        exact List.Sublist.cons_cons _ (this.trans (List.sublist_append_right r _))
  have := hsub (spans 1 m) errs (by rw [spans_length, hl])
  rwa [spans_fst] at this

/-- **C17, progress.** An interval of at least two points whose error exceeds a positive target ends up with strictly more
collocation points. -/
theorem refine_errors_adds_points (env : Env F) (hg : GrowthPos env) (Kmin Kmax : ℕ) (h1 : 1 ≤ Kmin) (v : Ival F) (b e target : F)
    (hK : Kmin ≤ v.K) (h2 : 2 ≤ v.K) (ht : 0 < target) (he : target < e) :
    v.K < points (refined Kmin Kmax (v.K + env.growth v.K e target) v.K v b) := by
  have := hg v.K e target h2 ht he
  exact (refine_ph_reaches Kmin Kmax _ h1 v b hK).2.2 (Or.inl (by omega))

/-- The growth assumption holds for the formula in the code over the reals (`lround` rounds half up here, as its argument is
positive). -/
theorem growth_formula_pos (K : ℕ) (e target : ℝ) (hK : 2 ≤ K) (ht : 0 < target) (he : target < e) :
    1 ≤ ⌊Real.log (e / target) / Real.log K + 1 + 1 / 2⌋ := by
  rw [Int.le_floor]
  have h1 : 0 < Real.log (e / target) := Real.log_pos (by rw [lt_div_iff₀ ht]; linarith)
  have h2 : 0 < Real.log (K : ℝ) := Real.log_pos (by exact_mod_cast hK)
  have := div_pos h1 h2
  push_cast
  linarith

/-- Two intervals, the second one above the target. -/
example : refineErrors ratEnv 2 3 [⟨2, 0⟩, ⟨3, 1 / 2⟩] [1 / 1000, 1] (1 / 100) =
    some [⟨2, 0⟩, ⟨3, 1 / 2⟩, ⟨2, 3 / 4⟩] := by
  norm_num [refineErrors, refineErrorsLoop, refineErrorsStep, nCollocIval, refinePh, splitLoop, tauf, List.insertIdx,
    List.modifyTailIdx, List.modifyTailIdx.go, ratEnv, lowEnv, List.range_succ]

/-! ## C22 -/

theorem tau0_le_of_lt {m : Mesh F} (hi : (m.map Ival.tau0).Pairwise (· < ·)) {i j : ℕ} {v w : Ival F}
    (hv : m[i]? = some v) (hw : m[j]? = some w) (hij : i < j) : v.tau0 < w.tau0 := by
  obtain ⟨h1, rfl⟩ := List.getElem?_eq_some_iff.1 hv
  obtain ⟨h2, rfl⟩ := List.getElem?_eq_some_iff.1 hw
  have := List.pairwise_iff_getElem.1 hi i j (by simpa using h1) (by simpa using h2) hij
  simpa using this

/-- **C22.** `interval_find` returns the first interval for `t < 0`, the last for `1 ≤ t`, and for `0 ≤ t < 1` there is
exactly one interval `[v.tau0, b)` that contains `t`, and its index is returned. -/
theorem interval_find_correct (env : Env F) (hs : IsSearch env) (Kmin Kmax : ℕ) (m : Mesh F) (hm : Valid Kmin Kmax m) (t : F) :
    (t < 0 → intervalFind env m t = 0) ∧ (1 ≤ t → intervalFind env m t = m.length - 1) ∧
    (0 ≤ t → t < 1 → (∃ v b, (spans 1 m)[intervalFind env m t]? = some (v, b) ∧ v.tau0 ≤ t ∧ t < b) ∧
      ∀ i v b, (spans 1 m)[i]? = some (v, b) → v.tau0 ≤ t → t < b → intervalFind env m t = i) := by
  have hfind : ∀ t, 0 ≤ t → t ≤ 1 → ∃ v, m[intervalFind env m t]? = some v ∧ v.tau0 ≤ t ∧
      ∀ w, m[intervalFind env m t + 1]? = some w → t < w.tau0 := by
    intro t h0 h1
    unfold intervalFind
    rw [if_neg (not_lt.2 h0), if_neg (not_lt.2 h1)]
    rcases hs (m.map Ival.tau0) t hm.increasing with ⟨-, h⟩ | ⟨i, a, h, ha, hat, hb⟩
    · exact absurd (h 0 hm.starts) (not_lt.2 h0)
    · rw [h]
      simp only [List.getElem?_map, Option.map_eq_some_iff] at ha hb
      obtain ⟨v, hv, rfl⟩ := ha
      exact ⟨v, hv, hat, fun w hw => hb w.tau0 ⟨w, hw, rfl⟩⟩
  have hspan : ∀ i v b, (spans 1 m)[i]? = some (v, b) → m[i]? = some v ∧ tauf m i = b := by
    intro i v b hi
    rw [spans_getElem?] at hi
    cases hv : m[i]? with
    | none => simp [hv] at hi
    | some w => rw [hv] at hi; simp at hi; exact ⟨by rw [hi.1], hi.2⟩
  refine ⟨fun h => by simp [intervalFind, h], fun h => ?_, fun h0 h1 => ⟨?_, ?_⟩⟩
  · rcases h.lt_or_eq with h | rfl
    · simp [intervalFind, h, not_lt.2 (zero_le_one.trans h.le)]
    · obtain ⟨v, hv, -, hw⟩ := hfind 1 zero_le_one le_rfl
      obtain ⟨hlt, -⟩ := List.getElem?_eq_some_iff.1 hv
      by_contra hne
      have hlt2 : intervalFind env m 1 + 1 < m.length := by omega
      have := hw _ (List.getElem?_eq_getElem hlt2)
      exact absurd this (not_lt.2 (hm.below _ (List.getElem_mem hlt2)).le)
  · obtain ⟨v, hv, hvt, hw⟩ := hfind t h0 h1.le
    refine ⟨v, tauf m (intervalFind env m t), by rw [spans_getElem?, hv]; rfl, hvt, ?_⟩
    unfold tauf
    cases hn : m[intervalFind env m t + 1]? with
    | none => exact h1
    | some w => exact hw w hn
  · intro i v b hi hvt htb
    obtain ⟨hv, hb⟩ := hspan i v b hi
    obtain ⟨w, hw, hwt, hnext⟩ := hfind t h0 h1.le
    rcases lt_trichotomy (intervalFind env m t) i with hlt | heq | hgt
    · exfalso
      have hil := (List.getElem?_eq_some_iff.1 hv).1
      have hlt2 : intervalFind env m t + 1 < m.length := by omega
      have h3 := hnext _ (List.getElem?_eq_getElem hlt2)
      rcases Nat.lt_or_ge (intervalFind env m t + 1) i with h4 | h4
      · exact absurd (h3.trans (tau0_le_of_lt hm.increasing (List.getElem?_eq_getElem hlt2) hv h4)) (not_lt.2 hvt)
      · have h5 : intervalFind env m t + 1 = i := by omega
        subst h5
        rw [List.getElem?_eq_getElem hlt2] at hv
        obtain rfl := Option.some.inj hv
        exact absurd h3 (not_lt.2 hvt)
    · exact heq
    · exfalso
      have hwl := (List.getElem?_eq_some_iff.1 hw).1
      have hlt2 : i + 1 < m.length := by omega
      have htf : tauf m i = m[i + 1].tau0 := by simp [tauf, hlt2]
      rw [← hb, htf] at htb
      rcases Nat.lt_or_ge (i + 1) (intervalFind env m t) with h4 | h4
      · exact absurd (htb.trans (tau0_le_of_lt hm.increasing (List.getElem?_eq_getElem hlt2) hw h4)) (not_lt.2 hwt)
      · have h5 : intervalFind env m t = i + 1 := by omega
        rw [h5, List.getElem?_eq_getElem hlt2] at hw
        obtain rfl := Option.some.inj hw
        exact absurd htb (not_lt.2 hwt)

/-- A lookup at a breakpoint goes to the interval on its right. -/
example : intervalFind ratEnv [⟨1, 0⟩, ⟨2, 1 / 3⟩, ⟨1, 1 / 2⟩] (1 / 2) = 2 ∧
    intervalFind ratEnv [⟨1, 0⟩, ⟨2, 1 / 3⟩, ⟨1, 1 / 2⟩] (2 / 5) = 1 ∧
    intervalFind ratEnv [⟨1, 0⟩, ⟨2, 1 / 3⟩, ⟨1, 1 / 2⟩] 1 = 2 := by
  refine ⟨?_, ?_, ?_⟩ <;> norm_num [intervalFind, ratEnv, lowEnv, List.countP_cons]

end Verif.Mesh
