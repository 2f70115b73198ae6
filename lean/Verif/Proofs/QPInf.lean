import Verif.Proofs.QPPolish

/-! # QP solver: infeasibility tests, exactness of the polish step -/

set_option linter.unusedSectionVars false

namespace Verif.QP

open Matrix Verif.QPSpec

variable {F : Type*} [Field F] [LinearOrder F] [IsStrictOrderedRing F] {n m : ℕ}

/-- One summand of `support`. -/
def supp1 (p : Pbm F n m) (d : Fin m → F) (i : Fin m) : F :=
  (match p.u i with | .fin b => b * max 0 (d i) | _ => 0) + (match p.l i with | .fin a => a * min 0 (d i) | _ => 0)

theorem dySum_spec {eps : F} {p : Pbm F n m} {dy : Fin m → F} {b : F} {L : List (Fin m)} {acc S : F}
    (h : dySum eps p dy b L acc = some S) :
    S = acc + (L.map (supp1 p dy)).sum ∧
      ∀ i ∈ L, (p.u i = .pos → dy i ≤ eps * b) ∧ (p.l i = .neg → -(eps * b) ≤ dy i) := by
  induction L generalizing acc with
  | nil => simp only [dySum, Option.some.injEq] at h; simp [h]
  | cons i L ih =>
    rw [dySum] at h
    cases hu : p.u i with
    | pos =>
      simp only [hu] at h
      by_cases h1 : eps * b < dy i
      · simp only [h1, if_true, reduceCtorEq] at h
      · simp only [h1, if_false] at h
        cases hl : p.l i with
        | neg =>
          simp only [hl] at h
          by_cases h2 : dy i < -eps * b
          · simp only [h2, if_true, reduceCtorEq] at h
          · simp only [h2, if_false] at h
            obtain ⟨e, f⟩ := ih h
            refine ⟨by rw [e]; simp [supp1, hu, hl], fun k hk => ?_⟩
            rcases List.mem_cons.1 hk with rfl | hk
            · exact ⟨fun _ => not_lt.1 h1, fun _ => by have := not_lt.1 h2; linarith⟩
            · exact f k hk
        | fin a =>
          simp only [hl] at h
          obtain ⟨e, f⟩ := ih h
          refine ⟨by rw [e]; simp only [supp1, hu, hl, List.map_cons, List.sum_cons]; ring, fun k hk => ?_⟩
          rcases List.mem_cons.1 hk with rfl | hk
          · exact ⟨fun _ => not_lt.1 h1, fun h => by rw [hl] at h; cases h⟩
          · exact f k hk
        | pos =>
          simp only [hl] at h
          obtain ⟨e, f⟩ := ih h
          refine ⟨by rw [e]; simp [supp1, hu, hl], fun k hk => ?_⟩
          rcases List.mem_cons.1 hk with rfl | hk
          · exact ⟨fun _ => not_lt.1 h1, fun h => by rw [hl] at h; cases h⟩
          · exact f k hk
    | fin c =>
      simp only [hu] at h
      cases hl : p.l i with
      | neg =>
        simp only [hl] at h
        by_cases h2 : dy i < -eps * b
        · simp only [h2, if_true, reduceCtorEq] at h
        · simp only [h2, if_false] at h
          obtain ⟨e, f⟩ := ih h
          refine ⟨by rw [e]; simp only [supp1, hu, hl, List.map_cons, List.sum_cons]; ring, fun k hk => ?_⟩
          rcases List.mem_cons.1 hk with rfl | hk
          · exact ⟨(fun h => by rw [hu] at h; cases h), fun _ => by have := not_lt.1 h2; linarith⟩
          · exact f k hk
      | fin a =>
        simp only [hl] at h
        obtain ⟨e, f⟩ := ih h
        refine ⟨by rw [e]; simp only [supp1, hu, hl, List.map_cons, List.sum_cons]; ring, fun k hk => ?_⟩
        rcases List.mem_cons.1 hk with rfl | hk
        · exact ⟨(fun h => by rw [hu] at h; cases h), fun h => by rw [hl] at h; cases h⟩
        · exact f k hk
      | pos =>
        simp only [hl] at h
        obtain ⟨e, f⟩ := ih h
        refine ⟨by rw [e]; simp only [supp1, hu, hl, List.map_cons, List.sum_cons]; ring, fun k hk => ?_⟩
        rcases List.mem_cons.1 hk with rfl | hk
        · exact ⟨(fun h => by rw [hu] at h; cases h), fun h => by rw [hl] at h; cases h⟩
        · exact f k hk
    | neg =>
      simp only [hu] at h
      cases hl : p.l i with
      | neg =>
        simp only [hl] at h
        by_cases h2 : dy i < -eps * b
        · simp only [h2, if_true, reduceCtorEq] at h
        · simp only [h2, if_false] at h
          obtain ⟨e, f⟩ := ih h
          refine ⟨by rw [e]; simp [supp1, hu, hl], fun k hk => ?_⟩
          rcases List.mem_cons.1 hk with rfl | hk
          · exact ⟨(fun h => by rw [hu] at h; cases h), fun _ => by have := not_lt.1 h2; linarith⟩
          · exact f k hk
      | fin a =>
        simp only [hl] at h
        obtain ⟨e, f⟩ := ih h
        refine ⟨by rw [e]; simp only [supp1, hu, hl, List.map_cons, List.sum_cons]; ring, fun k hk => ?_⟩
        rcases List.mem_cons.1 hk with rfl | hk
        · exact ⟨(fun h => by rw [hu] at h; cases h), fun h => by rw [hl] at h; cases h⟩
        · exact f k hk
      | pos =>
        simp only [hl] at h
        obtain ⟨e, f⟩ := ih h
        refine ⟨by rw [e]; simp [supp1, hu, hl], fun k hk => ?_⟩
        rcases List.mem_cons.1 hk with rfl | hk
        · exact ⟨(fun h => by rw [hu] at h; cases h), fun h => by rw [hl] at h; cases h⟩
        · exact f k hk

theorem sum_finRange_eq {k : ℕ} (f : Fin k → F) : ((List.finRange k).map f).sum = ∑ i, f i := by
  rw [← List.ofFn_eq_map, List.sum_ofFn]

theorem primalInfTest_spec {prm : Params F} {p : Pbm F n m} {dy : Fin m → F} (h : primalInfTest prm p dy = true) :
    ApproxFarkas p prm.epsPrimalInf dy := by
  unfold primalInfTest at h
  split at h
  · cases h
  · rename_i S hS
    obtain ⟨e, f⟩ := dySum_spec hS
    rw [zero_add, sum_finRange_eq] at e
    rw [decide_eq_true_eq] at h
    have h1 := lt_of_le_of_lt (le_max_left _ _) h
    have h2 := lt_of_le_of_lt (le_max_right _ _) h
    refine ⟨norm dy, norm_isMaxNorm _, ?_, fun j => lt_of_le_of_lt (le_norm _ j) h1, ?_, fun i => f i (List.mem_finRange i)⟩
    · by_contra hc
      have : norm dy = 0 := le_antisymm (not_lt.1 hc) (norm_nonneg _)
      rw [this, mul_zero] at h1
      exact absurd h1 (not_lt.2 (norm_nonneg _))
    · have : support p dy = S := by rw [e]; rfl
      rw [this]; exact h2

theorem dualInfTest_spec {prm : Params F} (he : 0 ≤ prm.epsDualInf) {p : Pbm F n m} {dx : Fin n → F}
    (h : dualInfTest prm p dx = true) : ApproxRecession p prm.epsDualInf dx := by
  unfold dualInfTest at h
  simp only [Bool.and_eq_true, decide_eq_true_eq, List.all_eq_true] at h
  obtain ⟨⟨h1, h2⟩, h3⟩ := h
  have hn : 0 ≤ prm.epsDualInf * norm dx := mul_nonneg he (norm_nonneg _)
  refine ⟨norm dx, norm_isMaxNorm _, fun j => (le_norm _ j).trans h1, h2, fun i => ?_⟩
  have := h3 i (List.mem_finRange i)
  cases hu : p.u i <;> cases hl : p.l i <;> rw [hu, hl] at this <;>
    simp only [dualRow, decide_eq_true_eq] at this <;> simp only [ne_eq, reduceCtorEq, not_true_eq_false, not_false_eq_true,
      true_implies, false_implies, true_and, and_true]
  all_goals first
    | exact this
    | (rw [abs_lt] at this; exact ⟨this.2.le, this.1.le⟩)
    | linarith

/-- What an approximate Farkas certificate excludes. -/
theorem farkas_excludes {p : Pbm F n m} {e r : F} (he : 0 ≤ e) {d : Fin m → F} (hr : 0 ≤ r)
    (h1 : ∀ j, |(p.Aᵀ *ᵥ d) j| ≤ e * r) (h3 : ∀ i, (p.u i = .pos → d i ≤ e * r) ∧ (p.l i = .neg → -(e * r) ≤ d i))
    {x : Fin n → F} (hx : Feasible p x) :
    -support p d ≤ e * r * (∑ j, |x j| + ∑ i, |(p.A *ᵥ x) i|) := by
  have her : 0 ≤ e * r := mul_nonneg he hr
  have row : ∀ i, d i * (p.A *ᵥ x) i ≤ supp1 p d i + e * r * |(p.A *ᵥ x) i| := by
    intro i
    set w := (p.A *ᵥ x) i
    obtain ⟨hl, hu⟩ := hx i
    have habs := mul_nonneg her (abs_nonneg w)
    have aux : ∀ c, |c| ≤ e * r → c * w ≤ e * r * |w| := fun c hc => by
      calc c * w ≤ |c * w| := le_abs_self _
        _ = |c| * |w| := abs_mul _ _
        _ ≤ _ := mul_le_mul_of_nonneg_right hc (abs_nonneg _)
    rcases le_total 0 (d i) with hd | hd
    · have e1 : max 0 (d i) = d i := max_eq_right hd
      have e2 : min 0 (d i) = 0 := min_eq_left hd
      have e3 : (match p.l i with | .fin a => a * min 0 (d i) | _ => 0) = (0 : F) := by
        cases p.l i <;> simp [e2]
      unfold supp1
      rw [e3, e1]
      cases hc : p.u i with
      | neg => rw [hc] at hu; exact absurd hu (by simp [upper])
      | fin b =>
        rw [hc] at hu
        have : d i * w ≤ d i * b := mul_le_mul_of_nonneg_left hu hd
        simp only; linarith
      | pos =>
        have := aux (d i) (by rw [abs_of_nonneg hd]; exact (h3 i).1 hc)
        simp only; linarith
    · have e1 : max 0 (d i) = 0 := max_eq_left hd
      have e2 : min 0 (d i) = d i := min_eq_right hd
      have e3 : (match p.u i with | .fin a => a * max 0 (d i) | _ => 0) = (0 : F) := by
        cases p.u i <;> simp [e1]
      unfold supp1
      rw [e3, e2]
      cases hc : p.l i with
      | pos => rw [hc] at hl; exact absurd hl (by simp [lower])
      | fin b =>
        rw [hc] at hl
        have : d i * w ≤ d i * b := mul_le_mul_of_nonpos_left hl hd
        simp only; linarith
      | neg =>
        have := aux (d i) (by rw [abs_of_nonpos hd]; have := (h3 i).2 hc; linarith)
        simp only; linarith
  have tot : d ⬝ᵥ p.A *ᵥ x ≤ support p d + e * r * ∑ i, |(p.A *ᵥ x) i| := by
    have : support p d = ∑ i, supp1 p d i := rfl
    rw [this, Finset.mul_sum, ← Finset.sum_add_distrib]
    exact Finset.sum_le_sum fun i _ => row i
  have low : -(e * r * ∑ j, |x j|) ≤ d ⬝ᵥ p.A *ᵥ x := by
    have e1 : d ⬝ᵥ p.A *ᵥ x = (p.Aᵀ *ᵥ d) ⬝ᵥ x := by rw [Matrix.mulVec_transpose, Matrix.dotProduct_mulVec]
    have := dot_abs_le (a := p.Aᵀ *ᵥ d) (b := -x) h1
    rw [dotProduct_neg, ← e1] at this
    simp only [Pi.neg_apply, abs_neg] at this
    linarith
  linarith

/-- An exact direction of unboundedness from a feasible point. -/
theorem recession_unbounded {p : Pbm F n m} (hP : p.P.IsSymm) {d : Fin n → F} (h : Recession p d) {x : Fin n → F}
    (hx : Feasible p x) : Unbounded p := by
  obtain ⟨h1, h2, h3⟩ := h
  intro b
  set g := -(p.q ⬝ᵥ d) with hg
  have hgpos : 0 < g := by rw [hg]; linarith
  set t := max 0 ((cost p x - b) / g + 1) with ht
  have ht0 : 0 ≤ t := le_max_left _ _
  have ht1 : (cost p x - b) / g < t := lt_of_lt_of_le (by linarith) (le_max_right _ _)
  refine ⟨x + t • d, ?_, ?_⟩
  · intro i
    rw [Matrix.mulVec_add, Matrix.mulVec_smul]
    simp only [Pi.add_apply, Pi.smul_apply, smul_eq_mul]
    obtain ⟨ha, hb⟩ := hx i
    constructor
    · cases hl : p.l i with
      | neg => trivial
      | pos => rw [hl] at ha; exact absurd ha (by simp [lower])
      | fin a =>
        rw [hl] at ha
        have := (h3 i).2 (by rw [hl]; simp)
        have := mul_nonneg ht0 this
        simp only [lower] at *; linarith
    · cases hu : p.u i with
      | pos => trivial
      | neg => rw [hu] at hb; exact absurd hb (by simp [upper])
      | fin a =>
        rw [hu] at hb
        have := (h3 i).1 (by rw [hu]; simp)
        have := mul_nonneg ht0 (neg_nonneg.2 this)
        simp only [upper] at *; linarith
  · have e1 : p.P *ᵥ (x + t • d) = p.P *ᵥ x := by rw [Matrix.mulVec_add, Matrix.mulVec_smul, h1]; simp
    have e2 : d ⬝ᵥ p.P *ᵥ x = 0 := by
      rw [Matrix.dotProduct_mulVec, ← Matrix.mulVec_transpose, hP.eq, h1]; simp
    have e3 : cost p (x + t • d) = cost p x - t * g := by
      simp only [cost]
      rw [e1, add_dotProduct, smul_dotProduct, e2, dotProduct_add, dotProduct_smul]
      simp only [smul_eq_mul, hg]; ring
    rw [e3]
    have := (div_lt_iff₀ hgpos).1 ht1
    linarith

/-! ### Polish -/

theorem sum_get_eq (L : List (Fin m)) (hL : L.Nodup) (f : Fin m → F) :
    ∑ k : Fin L.length, f (L.get k) = ∑ i ∈ L.toFinset, f i := by
  rw [List.sum_toFinset _ hL]
  have : L.map f = List.ofFn fun k : Fin L.length => f (L.get k) := by
    conv_lhs => rw [← List.ofFn_get L]
    rw [List.map_ofFn]; rfl
  rw [this, List.sum_ofFn]

/-- If the reduced system is solved exactly, the active rows hold with equality and the dual residual comes from the
neglected multipliers only. -/
theorem polish_exact {env : Env F n} {p : Pbm F n m} {s : Scaling F n m} {y : Fin m → F}
    (hP : p.P.IsSymm) (hs : s.Pos) (heps : 0 ≤ env.eps) {L : List (Fin m)} (hL : L = activeRows env.eps p y)
    {t : Fin n ⊕ Fin L.length → F}
    (ht : symUpper (polishH p s L) *ᵥ t = polishRhs p s ((List.finRange m).filter (lowActive env.eps p y)).length L) :
    (∀ i a, y i < -100 * env.eps → p.l i = .fin a → (p.A *ᵥ s.unX fun j => t (.inl j)) i = a) ∧
    (∀ i b, 100 * env.eps < y i → p.u i = .fin b → (p.A *ᵥ s.unX fun j => t (.inl j)) i = b) ∧
    ∀ j, (p.P *ᵥ s.unX fun j => t (.inl j)) j + p.q j + (p.Aᵀ *ᵥ s.unY (writeDual L (fun k => t (.inr k)) y)) j =
      ∑ i ∈ Finset.univ.filter (fun i => i ∉ L), p.A i j * (s.sy i * y i / s.c) := by
  have hnd : L.Nodup := hL ▸ activeRows_nodup heps p y
  have hrow : ∀ k : Fin L.length, s.sy (L.get k) * (p.A *ᵥ s.unX fun j => t (.inl j)) (L.get k) =
      polishRhs p s ((List.finRange m).filter (lowActive env.eps p y)).length L (.inr k) := by
    intro k
    rw [← ht]
    simp only [Matrix.mulVec, dotProduct, Fintype.sum_sum_type, symUpper, polishH, Scaling.unX, ite_self, zero_mul,
      Finset.sum_const_zero, add_zero]
    rw [Finset.mul_sum]
    exact Finset.sum_congr rfl fun j _ => by ring
  set nl := ((List.finRange m).filter (lowActive env.eps p y)).length with hnl
  have hlen : L.length = nl + ((List.finRange m).filter (upActive env.eps p y)).length := by
    rw [hL, activeRows, List.length_append]
  refine ⟨?_, ?_, ?_⟩
  · intro i a hy hl
    have hm : i ∈ (List.finRange m).filter (lowActive env.eps p y) := mem_lows.2 ⟨hy, by rw [hl]; simp⟩
    obtain ⟨k, hk, hki⟩ := List.getElem_of_mem hm
    have hk' : k < L.length := by omega
    have hget : L.get ⟨k, hk'⟩ = i := by
      subst hL
      simp only [List.get_eq_getElem, activeRows]
      rw [List.getElem_append_left hk, hki]
    have := hrow ⟨k, hk'⟩
    rw [hget] at this
    simp only [polishRhs] at this
    rw [if_pos hk, hget, hl] at this
    exact mul_left_cancel₀ (hs.2.2 i).ne' this
  · intro i a hy hu
    have hm : i ∈ (List.finRange m).filter (upActive env.eps p y) := mem_ups.2 ⟨hy, by rw [hu]; simp⟩
    obtain ⟨k, hk, hki⟩ := List.getElem_of_mem hm
    have hk' : nl + k < L.length := by omega
    have hget : L.get ⟨nl + k, hk'⟩ = i := by
      subst hL
      simp only [List.get_eq_getElem, activeRows]
      rw [List.getElem_append_right (by omega)]
      simp only [← hnl, Nat.add_sub_cancel_left]
      exact hki
    have := hrow ⟨nl + k, hk'⟩
    rw [hget] at this
    simp only [polishRhs] at this
    rw [if_neg (by omega), hget, hu] at this
    exact mul_left_cancel₀ (hs.2.2 i).ne' this
  · intro j
    have h1 := congrFun ht (.inl j)
    have e1 : (symUpper (polishH p s L) *ᵥ t) (.inl j) = s.c * s.sx j * (p.P *ᵥ s.unX fun j => t (.inl j)) j +
        s.sx j * ∑ k : Fin L.length, p.A (L.get k) j * (s.sy (L.get k) * t (.inr k)) := by
      simp only [Matrix.mulVec, dotProduct, Fintype.sum_sum_type, symUpper, polishH, Scaling.unX]
      congr 1
      · rw [Finset.mul_sum]
        refine Finset.sum_congr rfl fun i _ => ?_
        rw [hP.apply]
        split <;> ring
      · rw [Finset.mul_sum]
        exact Finset.sum_congr rfl fun i _ => by ring
    rw [e1] at h1
    simp only [polishRhs] at h1
    set Y := writeDual L (fun k => t (.inr k)) y with hY
    have e2 : ∑ k : Fin L.length, p.A (L.get k) j * (s.sy (L.get k) * t (.inr k)) =
        ∑ i ∈ L.toFinset, p.A i j * (s.sy i * Y i) := by
      rw [← sum_get_eq L hnd fun i => p.A i j * (s.sy i * Y i)]
      refine Finset.sum_congr rfl fun k _ => ?_
      rw [hY, writeDual_get L hnd]
    have e3 : (p.Aᵀ *ᵥ s.unY Y) j = (∑ i ∈ L.toFinset, p.A i j * (s.sy i * Y i)) / s.c +
        ∑ i ∈ Finset.univ.filter (fun i => i ∉ L), p.A i j * (s.sy i * y i / s.c) := by
      have e4 : (p.Aᵀ *ᵥ s.unY Y) j = ∑ i, p.A i j * (s.sy i * Y i / s.c) := by
        simp only [Matrix.mulVec, dotProduct, Scaling.unY, Matrix.transpose_apply]
      have e5 : Finset.univ.filter (fun i => i ∈ L) = L.toFinset := by ext i; simp
      rw [e4, ← Finset.sum_filter_add_sum_filter_not Finset.univ (fun i => i ∈ L), e5, Finset.sum_div]
      congr 1
      · exact Finset.sum_congr rfl fun i _ => by ring
      · refine Finset.sum_congr rfl fun i hi => ?_
        rw [hY, writeDual_notMem L _ _ (Finset.mem_filter.1 hi).2]
    rw [e2] at h1
    rw [e3]
    have hc := hs.1.ne'
    have hx := (hs.2.1 j).ne'
    have e6 : (p.P *ᵥ s.unX fun j => t (.inl j)) j + p.q j + (∑ i ∈ L.toFinset, p.A i j * (s.sy i * Y i)) / s.c = 0 := by
      have : s.c * s.sx j * ((p.P *ᵥ s.unX fun j => t (.inl j)) j + p.q j + (∑ i ∈ L.toFinset, p.A i j * (s.sy i * Y i)) / s.c) = 0 := by
        have e7 : s.c * ((∑ i ∈ L.toFinset, p.A i j * (s.sy i * Y i)) / s.c) = ∑ i ∈ L.toFinset, p.A i j * (s.sy i * Y i) := by
          field_simp
        linear_combination h1 + s.sx j * e7
      rcases mul_eq_zero.1 this with h | h
      · exact absurd h (mul_ne_zero hc hx)
      · exact h
    linear_combination e6

end Verif.QP
