import Verif.Proofs.MeshFnPoints

/-! # Functions over a mesh: the second part of mesh_dyn -/

set_option linter.unusedSectionVars false

namespace Verif.MeshFn

open Verif.Mesh Verif.Sparse

variable {nx nu : ℕ}

theorem sum_range_map {M : Type*} [AddCommMonoid M] (n : ℕ) (f : ℕ → M) :
    ((List.range n).map f).sum = ∑ j ∈ Finset.range n, f j := by
  induction n with
  | zero => rfl
  | succ n ih => rw [List.range_succ, List.map_append, List.sum_append, ih, Finset.sum_range_succ]; simp

theorem getD_append_left (l l' : List ℝ) (p : ℕ) (h : p < l.length) : (l ++ l').getD p 0 = l.getD p 0 := by
  simp only [List.getD_eq_getElem?_getD, List.getElem?_append_left h]

theorem getD_append_right' (l l' : List ℝ) (p : ℕ) (h : l.length ≤ p) : (l ++ l').getD p 0 = l'.getD (p - l.length) 0 := by
  simp only [List.getD_eq_getElem?_getD, List.getElem?_append_right h]

/-! ### The order of the walk -/

theorem walk_inside (env : Env ℝ) (d : ℕ) (m : Mesh ℝ) (N ival idx0 K : ℕ) (X : ℕ → Fin nx → ℝ) (hN : idx0 + K ≤ N) (c rest i : ℕ)
    (hi : i + c = idx0 + K) (o : MV ℝ) :
    dynWalk env d m N ((List.range' i (c + rest)).map fun i => (i, X i)) ival idx0 K o =
      (iter (fun i => dynAdd env d m ival idx0 K i (X i)) (List.range' i c) o).bind
        (dynWalk env d m N ((List.range' (i + c) rest).map fun i => (i, X i)) ival idx0 K) := by
  induction c generalizing i o with
  | zero => simp [iter]
  | succ c ih =>
    rw [show c + 1 + rest = (c + rest) + 1 by omega, List.range'_succ, List.range'_succ, List.map_cons, dynWalk, iter,
      if_neg (by omega), if_pos (by omega)]
    cases dynAdd env d m ival idx0 K i (X i) o with
    | none => rfl
    | some o1 =>
      dsimp only
      rw [ih (i + 1) (by omega), show i + 1 + c = i + (c + 1) by omega]

theorem walk_interval (env : Env ℝ) (d : ℕ) (m : Mesh ℝ) (N ival idx0 K rest : ℕ) (X : ℕ → Fin nx → ℝ) (hN : idx0 + K ≤ N)
    (v : Ival ℝ) (hv : m[ival + 1]? = some v) (hK : 1 ≤ v.K) (hN' : idx0 + K < N) (o : MV ℝ) :
    dynWalk env d m N ((List.range' idx0 (K + (1 + rest))).map fun i => (i, X i)) ival idx0 K o =
      (iter (fun i => dynAdd env d m ival idx0 K i (X i)) (List.range' idx0 (K + 1)) o).bind
        (dynWalk env d m N ((List.range' (idx0 + K) (1 + rest)).map fun i => (i, X i)) (ival + 1) (idx0 + K) v.K) := by
  rw [walk_inside env d m N ival idx0 K X hN K (1 + rest) idx0 rfl, List.range'_concat, iter_append, Option.bind_assoc]
  congr 1
  funext o1
  rw [show 1 + rest = rest + 1 by omega, List.range'_succ, List.map_cons, dynWalk, if_pos rfl, hv]
  simp only [Nat.one_mul, iter]
  cases dynAdd env d m ival idx0 K (idx0 + K) (X (idx0 + K)) o1 with
  | none => rfl
  | some o2 =>
    simp only [Option.bind_some]
    rw [if_pos hN', dynWalk, if_neg (by omega), if_pos hN']

theorem walk_last (env : Env ℝ) (d : ℕ) (m : Mesh ℝ) (N ival idx0 K : ℕ) (X : ℕ → Fin nx → ℝ) (hN : idx0 + K = N)
    (hv : m[ival + 1]? = none) (o : MV ℝ) :
    dynWalk env d m N ((List.range' idx0 (K + 1)).map fun i => (i, X i)) ival idx0 K o =
      iter (fun i => dynAdd env d m ival idx0 K i (X i)) (List.range' idx0 (K + 1)) o := by
  rw [walk_inside env d m N ival idx0 K X hN.le K 1 idx0 rfl, List.range'_concat (n := K), iter_append]
  congr 1
  funext o1
  simp only [Nat.one_mul, iter, List.range'_one, List.map_cons, List.map_nil]
  rw [dynWalk, if_pos rfl, hv]
  cases dynAdd env d m ival idx0 K (idx0 + K) (X (idx0 + K)) o1 with
  | none => rfl
  | some o2 => simp only [hN, lt_irrefl, if_false, dynWalk]

/-! ### One interval -/

/-- The coefficient of state `i` in row block `j` of an interval. -/
noncomputable def coefOf (env : Env ℝ) (v : Ival ℝ) (b : ℝ) (i j : ℕ) : ℝ :=
  if h : i < v.K + 1 ∧ j < v.K then
    -((b - v.tau0) / 2 * env.weight v.K j) * (2 / (b - v.tau0)) * diffmatUnscaled env v.K ⟨i, h.1⟩ ⟨j, h.2⟩
  else 0

theorem entry_does {d : ℕ} (env : Env ℝ) (N : ℕ) (lam : Vec ℝ) (v : Ival ℝ) (b : ℝ) (idx0 i : ℕ) (x : Fin nx → ℝ)
    (hi : i ≤ v.K) (hN : idx0 + v.K ≤ N) (j : ℕ) (hj : j < v.K) :
    Does d (nx * N) (numVars N nx nu) lam
      (fun j => dynEntry env d v.K (diffmatScale v.tau0 b) idx0 (idx0 + i) x (j, (b - v.tau0) / 2 * weightExt env v.K j))
      (fun j V r => V r + if nx * (idx0 + j) ≤ r ∧ r < nx * (idx0 + j) + nx then
        ext (fun k => coefOf env v b i j * x k) (r - nx * (idx0 + j)) else 0)
      (fun j a c => if OnDiagonal (nx * (idx0 + j)) (2 + nx * (idx0 + i)) nx a c then coefOf env v b i j else 0)
      (fun _ _ _ => 0) j := by
  intro o ho
  have hD : dusAt env v.K (idx0 + i - idx0) j = some (diffmatUnscaled env v.K ⟨i, by omega⟩ ⟨j, hj⟩) := by
    unfold dusAt
    rw [dif_pos ⟨by omega, hj⟩]
    simp only [Nat.add_sub_cancel_left]
  have hc : -((b - v.tau0) / 2 * weightExt env v.K j) * diffmatScale v.tau0 b * diffmatUnscaled env v.K ⟨i, by omega⟩ ⟨j, hj⟩ =
      coefOf env v b i j := by
    unfold coefOf weightExt diffmatScale
    rw [dif_pos ⟨by omega, hj⟩, if_pos hj]
  have hrow : nx * (idx0 + j) + nx ≤ nx * N := by
    rw [← Nat.mul_succ]; exact Nat.mul_le_mul_left _ (by omega)
  have hcol : 2 + nx * (idx0 + i) + nx ≤ numVars N nx nu := by
    have : nx * (idx0 + i) + nx ≤ nx * (N + 1) := by
      rw [← Nat.mul_succ]; exact Nat.mul_le_mul_left _ (by omega)
    unfold numVars; omega
  have hseg := addSeg_eq o.F (nx * (idx0 + j)) nx (ext fun k => coefOf env v b i j * x k) (by rw [ho.size]; exact hrow)
  simp only [dynEntry, hD, hc]
  rw [mul_comm (idx0 + j) nx, hseg]
  by_cases h1 : 1 ≤ d
  · obtain ⟨B, hB, hsB, hvB⟩ := identityOp_spec (fun a b => a + b) o.dF (nx * (idx0 + j)) (2 + nx * (idx0 + i)) nx (coefOf env v b i j)
      (by rw [(ho.dF h1).1]; exact hrow) (by rw [(ho.dF h1).2]; exact hcol)
    have hB' : blockAddIdentity o.dF (nx * (idx0 + j)) (2 + nx * (idx0 + i)) nx (coefOf env v b i j) = some B := hB
    refine ⟨{ o with
        F := ⟨o.F.size, fun r => o.F.val r + if nx * (idx0 + j) ≤ r ∧ r < nx * (idx0 + j) + nx then
          ext (fun k => coefOf env v b i j * x k) (r - nx * (idx0 + j)) else 0⟩
        dF := B }, ?_, ⟨ho.alloc, ho.lambda, ho.size, fun _ => ?_, ho.d2F, ho.lsize⟩, rfl, fun _ a c => ?_, fun _ a c => ?_⟩
    · simp only [if_pos h1, hB']
    · exact ⟨hsB.1.trans (ho.dF h1).1, hsB.2.1.trans (ho.dF h1).2⟩
    · simp only [Sp.val]
      rw [hvB]
      split
      · rfl
      · simp
    · simp
  · refine ⟨{ o with
        F := ⟨o.F.size, fun r => o.F.val r + if nx * (idx0 + j) ≤ r ∧ r < nx * (idx0 + j) + nx then
          ext (fun k => coefOf env v b i j * x k) (r - nx * (idx0 + j)) else 0⟩ }, ?_,
        ⟨ho.alloc, ho.lambda, ho.size, fun h => absurd h h1, ho.d2F, ho.lsize⟩, rfl, fun h => absurd h h1, fun _ a c => by simp⟩
    simp only [if_neg h1]

theorem weights_list (env : Env ℝ) (m : Mesh ℝ) (ival : ℕ) (v : Ival ℝ) (hv : m[ival]? = some v) :
    (List.range v.K).zip (intervalWeights env m ival) =
      (List.range v.K).map fun j => (j, (tauf m ival - v.tau0) / 2 * weightExt env v.K j) := by
  unfold intervalWeights
  rw [hv]
  apply List.ext_getElem
  · simp
  · intro i h1 h2
    simp

theorem iter_map' {α β σ : Type*} (step : β → σ → Option σ) (g : α → β) (l : List α) (o : σ) :
    iter step (l.map g) o = iter (fun a => step (g a)) l o := by
  induction l generalizing o with
  | nil => rfl
  | cons a l ih =>
    simp only [List.map_cons, iter]
    cases step (g a) o with
    | none => rfl
    | some o' => exact ih o'

theorem add_does {d : ℕ} (env : Env ℝ) (m : Mesh ℝ) (N : ℕ) (lam : Vec ℝ) (ival : ℕ) (v : Ival ℝ) (hv : m[ival]? = some v)
    (idx0 : ℕ) (X : ℕ → Fin nx → ℝ) (hN : idx0 + v.K ≤ N) (i : ℕ) (hi : i ≤ v.K) :
    Does d (nx * N) (numVars N nx nu) lam (fun i => dynAdd env d m ival idx0 v.K (idx0 + i) (X (idx0 + i)))
      (fun i V r => V r + ∑ j ∈ Finset.range v.K, if nx * (idx0 + j) ≤ r ∧ r < nx * (idx0 + j) + nx then
        ext (fun k => coefOf env v (tauf m ival) i j * X (idx0 + i) k) (r - nx * (idx0 + j)) else 0)
      (fun i a c => ∑ j ∈ Finset.range v.K,
        if OnDiagonal (nx * (idx0 + j)) (2 + nx * (idx0 + i)) nx a c then coefOf env v (tauf m ival) i j else 0)
      (fun _ _ _ => 0) i := by
  intro o ho
  obtain ⟨o', e, r, f, h1, h2⟩ := iter_spec (List.range v.K) (fun j hj => entry_does (d := d) (nu := nu) env N lam v (tauf m ival) idx0 i
    (X (idx0 + i)) hi hN j (List.mem_range.1 hj)) ho
  refine ⟨o', ?_, r, ?_, ?_, ?_⟩
  · simp only [dynAdd, hv]
    rw [weights_list env m ival v hv, iter_map']
    exact e
  · rw [f]
    funext r
    rw [foldl_add, sum_range_map]
  · intro hd a c
    rw [h1 hd, sum_range_map]
  · intro hd a c
    rw [h2 hd]
    simp

/-- The unit vector of variable `w`. -/
noncomputable def unit {N : ℕ} (w : Var N nx nu) : Var N nx nu → ℝ := fun w' => if w' = w then 1 else 0

theorem onDiagonal_iff {N : ℕ} (p q i : ℕ) (k : Fin nx) (hi : i < N + 1) (w : Var N nx nu) :
    OnDiagonal (nx * q) (2 + nx * i) nx (nx * p + k) w.pos ↔ p = q ∧ w = .x ⟨i, hi⟩ k := by
  constructor
  · rintro ⟨l, hl, h1, h2⟩
    have hpq : p = q := mul_block k.2 (by omega) (by omega)
    subst hpq
    have hkl : (k : ℕ) = l := by omega
    have hg := (w.in_grp (.x ⟨i, hi⟩)).1 (by simp only [Grp.start, Grp.len]; omega)
    refine ⟨rfl, ?_⟩
    cases w with
    | x i' k' =>
      simp only [Var.grp, Grp.x.injEq] at hg
      subst hg
      simp only [Var.pos] at h2
      congr 1
      exact Fin.ext (by omega)
    | _ => simp [Var.grp] at hg
  · rintro ⟨rfl, rfl⟩
    exact ⟨k, k.2, rfl, rfl⟩

theorem interval_does {d : ℕ} (env : Env ℝ) (m : Mesh ℝ) (N : ℕ) (lam : Vec ℝ) (ival : ℕ) (v : Ival ℝ) (hv : m[ival]? = some v)
    (idx0 : ℕ) (X : ℕ → Fin nx → ℝ) (hN : idx0 + v.K ≤ N) (o : MV ℝ) (ho : Ready d (nx * N) (numVars N nx nu) lam o) :
    ∃ o', iter (fun i => dynAdd env d m ival idx0 v.K i (X i)) (List.range' idx0 (v.K + 1)) o = some o' ∧
      Ready d (nx * N) (numVars N nx nu) lam o' ∧
      (∀ p (k : Fin nx), o'.F.val (nx * p + k) = o.F.val (nx * p + k) +
        if idx0 ≤ p ∧ p < idx0 + v.K then
          ∑ i ∈ Finset.range (v.K + 1), coefOf env v (tauf m ival) i (p - idx0) * X (idx0 + i) k else 0) ∧
      (1 ≤ d → ∀ p (k : Fin nx) (w : Var N nx nu), o'.dF.val (nx * p + k) w.pos = o.dF.val (nx * p + k) w.pos +
        if idx0 ≤ p ∧ p < idx0 + v.K then
          ∑ i ∈ Finset.range (v.K + 1), coefOf env v (tauf m ival) i (p - idx0) * coordAt (unit w) k (idx0 + i) else 0) ∧
      (2 ≤ d → ∀ a b, o'.d2F.val a b = o.d2F.val a b) := by
  obtain ⟨o', e, r, f, h1, h2⟩ := iter_spec (List.range (v.K + 1)) (fun i hi => add_does (d := d) (nu := nu) env m N lam ival v hv idx0
    X hN i (by have := List.mem_range.1 hi; omega)) ho
  refine ⟨o', ?_, r, fun p k => ?_, fun hd p k w => ?_, fun hd a b => ?_⟩
  · rw [List.range'_eq_map_range, iter_map']; exact e
  · rw [f, foldl_add, sum_range_map]
    congr 1
    have hin : ∀ i ∈ Finset.range (v.K + 1), (∑ j ∈ Finset.range v.K,
        if nx * (idx0 + j) ≤ nx * p + k ∧ nx * p + k < nx * (idx0 + j) + nx then
          ext (fun k => coefOf env v (tauf m ival) i j * X (idx0 + i) k) (nx * p + k - nx * (idx0 + j)) else 0) =
        if idx0 ≤ p ∧ p < idx0 + v.K then coefOf env v (tauf m ival) i (p - idx0) * X (idx0 + i) k else 0 := by
      intro i _
      by_cases hp : idx0 ≤ p ∧ p < idx0 + v.K
      · rw [if_pos hp, Finset.sum_eq_single (p - idx0)]
        · rw [show idx0 + (p - idx0) = p by omega, if_pos ⟨by omega, by omega⟩, Nat.add_sub_cancel_left]
          simp [ext]
        · intro j _ hj
          rw [if_neg]
          rintro ⟨e1, e2⟩
          have := mul_block k.2 e1 e2
          omega
        · intro h; exact absurd (Finset.mem_range.2 (by omega)) h
      · rw [if_neg hp]
        refine Finset.sum_eq_zero fun j hj => ?_
        rw [if_neg]
        rintro ⟨e1, e2⟩
        have := mul_block k.2 e1 e2
        have := Finset.mem_range.1 hj
        omega
    rw [Finset.sum_congr rfl hin]
    by_cases hp : idx0 ≤ p ∧ p < idx0 + v.K
    · simp only [if_pos hp]
    · simp only [if_neg hp, Finset.sum_const_zero]
  · rw [h1 hd, sum_range_map]
    congr 1
    have hin : ∀ i ∈ Finset.range (v.K + 1), (∑ j ∈ Finset.range v.K,
        if OnDiagonal (nx * (idx0 + j)) (2 + nx * (idx0 + i)) nx (nx * p + k) w.pos then coefOf env v (tauf m ival) i j else 0) =
        if idx0 ≤ p ∧ p < idx0 + v.K then coefOf env v (tauf m ival) i (p - idx0) * coordAt (unit w) k (idx0 + i) else 0 := by
      intro i hi
      have hiN : idx0 + i < N + 1 := by have := Finset.mem_range.1 hi; omega
      have hco : coordAt (unit w) k (idx0 + i) = if w = .x ⟨idx0 + i, hiN⟩ k then 1 else 0 := by
        unfold coordAt unit
        rw [dif_pos hiN]
        by_cases h : w = .x ⟨idx0 + i, hiN⟩ k
        · rw [if_pos h.symm, if_pos h]
        · rw [if_neg (fun e => h e.symm), if_neg h]
      by_cases hp : idx0 ≤ p ∧ p < idx0 + v.K
      · rw [if_pos hp, Finset.sum_eq_single (p - idx0), hco]
        · rw [show idx0 + (p - idx0) = p by omega]
          by_cases h : w = .x ⟨idx0 + i, hiN⟩ k
          · rw [if_pos ((onDiagonal_iff p p _ k hiN w).2 ⟨rfl, h⟩), if_pos h, mul_one]
          · rw [if_neg (fun e => h ((onDiagonal_iff p p _ k hiN w).1 e).2), if_neg h, mul_zero]
        · intro j _ hj
          rw [if_neg]
          intro e
          have := ((onDiagonal_iff p _ _ k hiN w).1 e).1
          omega
        · intro h; exact absurd (Finset.mem_range.2 (by omega)) h
      · rw [if_neg hp]
        refine Finset.sum_eq_zero fun j hj => ?_
        rw [if_neg]
        intro e
        have := ((onDiagonal_iff p _ _ k hiN w).1 e).1
        have := Finset.mem_range.1 hj
        omega
    rw [Finset.sum_congr rfl hin]
    by_cases hp : idx0 ≤ p ∧ p < idx0 + v.K
    · simp only [if_pos hp]
    · simp only [if_neg hp, Finset.sum_const_zero]
  · rw [h2 hd]; simp

/-! ### All intervals -/

/-- What the second part adds at the collocation point with index `p`. -/
noncomputable def wslope (env : Env ℝ) : List (Ival ℝ × ℝ) → (ℕ → ℝ) → ℕ → ℝ
  | [], _, _ => 0
  | (v, b) :: r, X, p =>
    if p < v.K then ∑ i ∈ Finset.range (v.K + 1), coefOf env v b i p * X i
    else wslope env r (fun k => X (v.K + k)) (p - v.K)

theorem wslope_eq (env : Env ℝ) (r : List (Ival ℝ × ℝ)) (X : ℕ → ℝ) (p : ℕ) :
    wslope env r X p = -((r.flatMap (localWeights env)).getD p 0 * slope env r X p) := by
  induction r generalizing X p with
  | nil => simp [wslope, slope]
  | cons a r ih =>
    obtain ⟨v, b⟩ := a
    have hlen : (localWeights env (v, b)).length = v.K := by simp [localWeights]
    rw [wslope, slope, List.flatMap_cons]
    by_cases hp : p < v.K
    · rw [if_pos hp, dif_pos hp, getD_append_left _ _ _ (by omega), Finset.sum_range, Finset.mul_sum, ← Finset.sum_neg_distrib]
      refine Finset.sum_congr rfl fun i _ => ?_
      have hw : (localWeights env (v, b)).getD p 0 = (b - v.tau0) / 2 * env.weight v.K p := by
        simp [localWeights, List.getD_eq_getElem?_getD, hp]
      rw [hw, coefOf, dif_pos ⟨i.2, hp⟩, diffmat]
      ring
    · rw [if_neg hp, dif_neg hp, ih, getD_append_right' _ _ _ (by omega), hlen]

theorem walk_spec {d : ℕ} (env : Env ℝ) (m : Mesh ℝ) (hK : ∀ v ∈ m, 1 ≤ v.K) (lam : Vec ℝ) (X : ℕ → Fin nx → ℝ)
    (r : List (Ival ℝ × ℝ)) (ival idx0 rest : ℕ) (v : Ival ℝ) (b : ℝ) (hr : (spans 1 m).drop ival = (v, b) :: r)
    (hidx : idx0 + v.K + (r.map fun p => p.1.K).sum = nColloc m) (hrest : rest = v.K + (r.map fun p => p.1.K).sum + 1)
    (o : MV ℝ) (ho : Ready d (nx * nColloc m) (numVars (nColloc m) nx nu) lam o) :
    ∃ o', dynWalk env d m (nColloc m) ((List.range' idx0 rest).map fun i => (i, X i)) ival idx0 v.K o = some o' ∧
      Ready d (nx * nColloc m) (numVars (nColloc m) nx nu) lam o' ∧
      (∀ p (k : Fin nx), o'.F.val (nx * p + k) = o.F.val (nx * p + k) +
        if idx0 ≤ p then wslope env ((v, b) :: r) (fun i => X (idx0 + i) k) (p - idx0) else 0) ∧
      (1 ≤ d → ∀ p (k : Fin nx) (w : Var (nColloc m) nx nu), o'.dF.val (nx * p + k) w.pos = o.dF.val (nx * p + k) w.pos +
        if idx0 ≤ p then wslope env ((v, b) :: r) (fun i => coordAt (unit w) k (idx0 + i)) (p - idx0) else 0) ∧
      (2 ≤ d → ∀ a b, o'.d2F.val a b = o.d2F.val a b) := by
  have hget : (spans 1 m)[ival]? = some (v, b) := by
    have := List.getElem?_drop (xs := spans 1 m) (i := ival) (j := 0)
    rw [hr] at this
    simpa using this.symm
  rw [spans_getElem?] at hget
  obtain ⟨v', hv, hvb⟩ := Option.map_eq_some_iff.1 hget
  simp only [Prod.mk.injEq] at hvb
  obtain ⟨rfl, rfl⟩ := hvb
  induction r generalizing ival idx0 v' rest o with
  | nil =>
    simp only [List.map_nil, List.sum_nil, Nat.add_zero] at hidx hrest
    have hnext : m[ival + 1]? = none := by
      have hd : (spans 1 m).drop (ival + 1) = [] := by
        rw [← List.drop_drop, hr]; rfl
      have := List.getElem?_drop (xs := spans 1 m) (i := ival + 1) (j := 0)
      rw [hd, Nat.add_zero, spans_getElem?] at this
      simpa using this.symm
    obtain ⟨o', e, rd, f, h1, h2⟩ := interval_does (d := d) (nu := nu) env m (nColloc m) lam ival v' hv idx0 X hidx.le o ho
    refine ⟨o', ?_, rd, fun p k => ?_, fun hd p k w => ?_, h2⟩
    · rw [hrest, walk_last env d m _ ival idx0 v'.K X hidx hnext]; exact e
    · rw [f]
      by_cases hp : idx0 ≤ p
      · rw [if_pos hp, wslope]
        by_cases hp2 : p < idx0 + v'.K
        · rw [if_pos ⟨hp, hp2⟩, if_pos (by omega)]
        · rw [if_neg (fun h => hp2 h.2), if_neg (by omega), wslope]
      · rw [if_neg hp, if_neg (fun h => hp h.1)]
    · rw [h1 hd]
      by_cases hp : idx0 ≤ p
      · rw [if_pos hp, wslope]
        by_cases hp2 : p < idx0 + v'.K
        · rw [if_pos ⟨hp, hp2⟩, if_pos (by omega)]
        · rw [if_neg (fun h => hp2 h.2), if_neg (by omega), wslope]
      · rw [if_neg hp, if_neg (fun h => hp h.1)]
  | cons a r ih =>
    obtain ⟨v1, b1⟩ := a
    simp only [List.map_cons, List.sum_cons] at hidx hrest
    have hdrop : (spans 1 m).drop (ival + 1) = (v1, b1) :: r := by
      rw [← List.drop_drop, hr]; rfl
    have hget1 : (spans 1 m)[ival + 1]? = some (v1, b1) := by
      have := List.getElem?_drop (xs := spans 1 m) (i := ival + 1) (j := 0)
      rw [hdrop] at this
      simpa using this.symm
    rw [spans_getElem?] at hget1
    obtain ⟨v1', hv1, hvb1⟩ := Option.map_eq_some_iff.1 hget1
    simp only [Prod.mk.injEq] at hvb1
    obtain ⟨rfl, rfl⟩ := hvb1
    have hK1 : 1 ≤ v1'.K := hK v1' (List.mem_of_getElem? hv1)
    obtain ⟨o1, e1, rd1, f1, h11, h21⟩ := interval_does (d := d) (nu := nu) env m (nColloc m) lam ival v' hv idx0 X (by omega) o ho
    obtain ⟨o2, e2, rd2, f2, h12, h22⟩ := ih (ival + 1) (idx0 + v'.K) (v1'.K + (r.map fun p => p.1.K).sum + 1) o1 rd1 v1'
      hv1 (by omega) rfl hdrop (by rw [hv1]; rfl)
    refine ⟨o2, ?_, rd2, fun p k => ?_, fun hd p k w => ?_, fun hd a b => by rw [h22 hd, h21 hd]⟩
    · have hre : rest = v'.K + (1 + (v1'.K + (r.map fun p => p.1.K).sum)) := by omega
      rw [hre, walk_interval env d m _ ival idx0 v'.K _ X (by omega) v1' hv1 hK1 (by omega), e1, Option.bind_some,
        show 1 + (v1'.K + (r.map fun p => p.1.K).sum) = v1'.K + (r.map fun p => p.1.K).sum + 1 by omega]
      exact e2
    · rw [f2, f1, add_assoc]
      congr 1
      by_cases hp : idx0 ≤ p
      · rw [if_pos hp]
        conv_rhs => rw [wslope]
        by_cases hp2 : p < idx0 + v'.K
        · rw [if_pos ⟨hp, hp2⟩, if_neg (by omega), if_pos (by omega), add_zero]
        · rw [if_neg (fun h => hp2 h.2), if_pos (by omega), if_neg (by omega), zero_add, Nat.sub_sub]
          simp only [Nat.add_assoc]
      · rw [if_neg hp, if_neg (fun h => hp h.1), if_neg (by omega), add_zero]
    · rw [h12 hd, h11 hd, add_assoc]
      congr 1
      by_cases hp : idx0 ≤ p
      · rw [if_pos hp]
        conv_rhs => rw [wslope]
        by_cases hp2 : p < idx0 + v'.K
        · rw [if_pos ⟨hp, hp2⟩, if_neg (by omega), if_pos (by omega), add_zero]
        · rw [if_neg (fun h => hp2 h.2), if_pos (by omega), if_neg (by omega), zero_add, Nat.sub_sub]
          simp only [Nat.add_assoc]
      · rw [if_neg hp, if_neg (fun h => hp h.1), if_neg (by omega), add_zero]

/-! ### The slopes as functions of the variables -/

theorem slope_contDiff {ι : Type*} [Fintype ι] (env : Env ℝ) (r : List (Ival ℝ × ℝ)) (X : (ι → ℝ) → ℕ → ℝ)
    (hX : ∀ i, ContDiff ℝ 2 fun z => X z i) (p : ℕ) : ContDiff ℝ 2 fun z => slope env r (X z) p := by
  induction r generalizing X p with
  | nil => exact contDiff_const
  | cons a r ih =>
    obtain ⟨v, b⟩ := a
    simp only [slope]
    split
    · exact ContDiff.sum fun k _ => contDiff_const.mul (hX k)
    · exact ih (fun z k => X z (v.K + k)) (fun i => hX _) _

theorem pd_slope {ι : Type*} [Fintype ι] [DecidableEq ι] (env : Env ℝ) (r : List (Ival ℝ × ℝ)) (X : (ι → ℝ) → ℕ → ℝ)
    (hX : ∀ i, ContDiff ℝ 2 fun z => X z i) (p : ℕ) (w : ι) (z : ι → ℝ) :
    pd (fun z => slope env r (X z) p) w z = slope env r (fun i => pd (fun z => X z i) w z) p := by
  induction r generalizing X p with
  | nil => exact pd_const 0 w z
  | cons a r ih =>
    obtain ⟨v, b⟩ := a
    simp only [slope]
    by_cases h : p < v.K
    · simp only [dif_pos h]
      rw [pd_sum (f := fun (k : Fin (v.K + 1)) z => diffmat env v.K v.tau0 b k ⟨p, h⟩ * X z k)
        (fun k _ => (contDiff_differentiable (hX k) z).const_mul _)]
      exact Finset.sum_congr rfl fun k _ => pd_const_mul _ (contDiff_differentiable (hX k) z) w
    · simp only [dif_neg h]
      exact ih (fun z k => X z (v.K + k)) (fun i => hX _) _

theorem coordAt_contDiff {N : ℕ} (k : Fin nx) (i : ℕ) : ContDiff ℝ 2 fun z : Var N nx nu → ℝ => coordAt z k i := by
  unfold coordAt
  split
  · fun_prop
  · exact contDiff_const

theorem pd_coordAt {N : ℕ} (k : Fin nx) (i : ℕ) (w : Var N nx nu) (z : Var N nx nu → ℝ) :
    pd (fun z : Var N nx nu → ℝ => coordAt z k i) w z = coordAt (unit w) k i := by
  unfold coordAt
  by_cases h : i < N + 1
  · simp only [dif_pos h]; rw [pd_coord]; rfl
  · simp only [dif_neg h]; exact pd_const 0 w z

theorem slopeAt_contDiff {N : ℕ} (env : Env ℝ) (r : List (Ival ℝ × ℝ)) (k : Fin nx) (p : ℕ) :
    ContDiff ℝ 2 fun z : Var N nx nu → ℝ => slope env r (coordAt z k) p :=
  slope_contDiff env r (fun z i => coordAt z k i) (fun i => coordAt_contDiff k i) p

theorem pd_slopeAt {N : ℕ} (env : Env ℝ) (r : List (Ival ℝ × ℝ)) (k : Fin nx) (p : ℕ) (w : Var N nx nu) (z : Var N nx nu → ℝ) :
    pd (fun z => slope env r (coordAt z k) p) w z = slope env r (coordAt (unit w) k) p := by
  rw [pd_slope env r (fun z i => coordAt z k i) (fun i => coordAt_contDiff k i)]
  congr 1
  funext i
  exact pd_coordAt k i w z

theorem pd_pd_slopeAt {N : ℕ} (env : Env ℝ) (r : List (Ival ℝ × ℝ)) (k : Fin nx) (p : ℕ) (v w : Var N nx nu)
    (z : Var N nx nu → ℝ) : pd (pd (fun z => slope env r (coordAt z k) p) v) w z = 0 := by
  have : pd (fun z : Var N nx nu → ℝ => slope env r (coordAt z k) p) v = fun _ => slope env r (coordAt (unit v) k) p := by
    funext z; exact pd_slopeAt env r k p v z
  rw [this, pd_const]

end Verif.MeshFn
