import Verif.Spec.Ipopt
import Verif.Proofs.Sparse

/-! # The Ipopt interface: lemmas -/

namespace Verif.Ipopt

open Verif.QP (Ext)
open Verif.Sparse Verif.MeshFn
open Verif.NLP (NLPSol NLPStatus)

set_option linter.unusedSectionVars false

variable {σ F : Type*} [Field F] [LinearOrder F]

/-! ### Stored positions -/

/-- The positions of a pattern in storage order. -/
def posList (r c : ℕ) (rm : Bool) (pat : ℕ → ℕ → Bool) : List (ℕ × ℕ) :=
  if rm then (List.range r).flatMap fun i => (List.range c).filterMap fun j => if pat i j then some (i, j) else none
  else (List.range c).flatMap fun j => (List.range r).filterMap fun i => if pat i j then some (i, j) else none

theorem entries_pos (A : Sp F) :
    (A.entries.map fun e => (e.1, e.2.1)) = posList A.rows A.cols A.rowMajor fun i j => (A.ent i j).isSome := by
  unfold Sp.entries posList
  split_ifs <;>
  · rw [List.map_flatMap]
    congr 1
    funext i
    rw [List.map_filterMap]
    congr 1
    funext j
    first | (cases h : A.ent i j <;> simp [h]; done) | (cases h : A.ent j i <;> simp [h]; done)

theorem posList_congr {r c : ℕ} {rm : Bool} {pat pat' : ℕ → ℕ → Bool} (h : ∀ i < r, ∀ j < c, pat i j = pat' i j) :
    posList r c rm pat = posList r c rm pat' := by
  unfold posList
  split_ifs
  · refine List.flatMap_congr fun i hi => List.filterMap_congr fun j hj => ?_
    rw [h i (List.mem_range.1 hi) j (List.mem_range.1 hj)]
  · refine List.flatMap_congr fun j hj => List.filterMap_congr fun i hi => ?_
    rw [h i (List.mem_range.1 hi) j (List.mem_range.1 hj)]

theorem mem_posList {r c : ℕ} {rm : Bool} {pat : ℕ → ℕ → Bool} {i j : ℕ} :
    (i, j) ∈ posList r c rm pat ↔ i < r ∧ j < c ∧ pat i j = true := by
  unfold posList
  split_ifs
  · simp only [List.mem_flatMap, List.mem_range, List.mem_filterMap]
    constructor
    · rintro ⟨a, ha, b, hb, h⟩
      split_ifs at h with hp
      obtain ⟨rfl, rfl⟩ := Prod.mk.inj (Option.some.inj h)
      exact ⟨ha, hb, hp⟩
    · rintro ⟨hi, hj, hp⟩
      exact ⟨i, hi, j, hj, by rw [if_pos hp]⟩
  · simp only [List.mem_flatMap, List.mem_range, List.mem_filterMap]
    constructor
    · rintro ⟨a, ha, b, hb, h⟩
      split_ifs at h with hp
      obtain ⟨rfl, rfl⟩ := Prod.mk.inj (Option.some.inj h)
      exact ⟨hb, ha, hp⟩
    · rintro ⟨hi, hj, hp⟩
      exact ⟨j, hj, i, hi, by rw [if_pos hp]⟩

theorem entries_nodup (A : Sp F) : (A.entries.map fun e => (e.1, e.2.1)).Nodup := by
  have := entries_apart A
  rw [List.Nodup, List.pairwise_map]
  refine this.imp ?_
  rintro e e' h h'
  obtain ⟨h1, h2⟩ := Prod.mk.inj h'
  unfold Apart at h
  simp_all

theorem sum_filter (l : List (ℕ × ℕ × F)) (q : ℕ × ℕ × F → Prop) [DecidablePred q] :
    ((l.filter fun e => q e).map fun e => e.2.2).sum = (l.map fun e => if q e then e.2.2 else 0).sum := by
  induction l with
  | nil => rfl
  | cons e l ih =>
    rw [List.filter_cons, List.map_cons, List.sum_cons, ← ih]
    by_cases h : q e
    · rw [if_pos (by simpa using h), if_pos h, List.map_cons, List.sum_cons]
    · rw [if_neg (by simpa using h), if_neg h, zero_add]

/-- Triplets read off a matrix through `g` on the positions. -/
theorem triplet_entries (A : Sp F) (g : ℕ × ℕ → ℕ × ℕ) (r c : ℕ) :
    triplet (A.entries.map fun e => g (e.1, e.2.1)) (A.entries.map fun e => e.2.2) r c =
      ∑ i ∈ Finset.range A.rows, ∑ j ∈ Finset.range A.cols, if g (i, j) = (r, c) then A.val i j else 0 := by
  unfold triplet
  rw [List.zip_map', List.filter_map, List.map_map]
  have e1 := sum_filter A.entries fun e => g (e.1, e.2.1) = (r, c)
  have e2 := sum_entries A (fun i j v => if g (i, j) = (r, c) then v else 0) (fun i j => by simp)
  exact e1.trans e2

theorem triplet_plain (A : Sp F) {r c : ℕ} (hr : r < A.rows) (hc : c < A.cols) :
    triplet (A.entries.map fun e => (e.1, e.2.1)) (A.entries.map fun e => e.2.2) r c = A.val r c := by
  have := triplet_entries A id r c
  refine this.trans ?_
  rw [Finset.sum_eq_single r, Finset.sum_eq_single c]
  · simp
  · intro j _ hj
    simp [hj]
  · intro h
    exact absurd (Finset.mem_range.2 hc) h
  · intro i _ hi
    simp [hi]
  · intro h
    exact absurd (Finset.mem_range.2 hr) h

theorem triplet_swap (A : Sp F) {r c : ℕ} (hr : c < A.rows) (hc : r < A.cols) :
    triplet (A.entries.map fun e => (e.2.1, e.1)) (A.entries.map fun e => e.2.2) r c = A.val c r := by
  have := triplet_entries A Prod.swap r c
  refine this.trans ?_
  rw [Finset.sum_eq_single c, Finset.sum_eq_single r]
  · simp
  · intro j _ hj
    simp [hj]
  · intro h
    exact absurd (Finset.mem_range.2 hc) h
  · intro i _ hi
    simp [hi]
  · intro h
    exact absurd (Finset.mem_range.2 hr) h

theorem nnz_eq (A : Sp F) : nnz A = (posList A.rows A.cols A.rowMajor fun i j => (A.ent i j).isSome).length := by
  rw [← entries_pos, List.length_map, nnz]

theorem addSp_some {A B : Sp F} (hr : A.rows = B.rows) (hc : A.cols = B.cols) :
    ∃ C, addSp A B = some C ∧ C.rows = A.rows ∧ C.cols = A.cols ∧ C.rowMajor = A.rowMajor ∧
      (∀ i j, (C.ent i j).isSome = ((A.ent i j).isSome || (B.ent i j).isSome)) ∧ ∀ i j, C.val i j = A.val i j + B.val i j := by
  unfold addSp
  rw [if_pos ⟨hr, hc⟩]
  refine ⟨_, rfl, rfl, rfl, rfl, fun i j => ?_, fun i j => ?_⟩
  · dsimp only
    cases A.ent i j <;> cases B.ent i j <;> rfl
  · simp only [Sp.val]
    cases A.ent i j <;> cases B.ent i j <;> simp

theorem scaleSp_val (s : F) (A : Sp F) (i j : ℕ) : (scaleSp s A).val i j = s * A.val i j := by
  simp only [scaleSp, Sp.val]
  cases A.ent i j
  · simp
  · simp [mul_comm]

/-! ### The invariant of the run -/

/-- Both Hessian patterns. -/
def patH (M : Meaning F) (i j : ℕ) : Bool := M.patF i j || M.patG i j

/-- The positions handed to Ipopt for the Hessian and the Jacobian. -/
def hessPos (p : Nlp σ F) (M : Meaning F) : List (ℕ × ℕ) := posList p.n p.n false (patH M)
def jacPos (p : Nlp σ F) (M : Meaning F) : List (ℕ × ℕ) := posList p.m p.n M.rowMajorJ M.patJ

/-- The members after `get_nlp_info`. -/
structure Good (p : Nlp σ F) (M : Meaning F) (Inv : σ → Prop) (useHessian warm : Bool) (w : W σ F) : Prop where
  inv : Inv w.st
  hess : useHessian = true → w.H.rows = p.n ∧ w.H.cols = p.n ∧ w.H.rowMajor = false ∧ ∀ i < p.n, ∀ j < p.n, (w.H.ent i j).isSome = patH M i j
  x : w.sol.x.size = p.n
  z : warm = true → Sized p.n p.m w.sol

variable {p : Nlp σ F} {M : Meaning F} {Inv : σ → Prop}

theorem nnz_hess {H : Sp F} (h : H.rows = p.n ∧ H.cols = p.n ∧ H.rowMajor = false ∧ ∀ i < p.n, ∀ j < p.n, (H.ent i j).isSome = patH M i j) :
    (H.entries.map fun e => (e.1, e.2.1)) = hessPos p M ∧ nnz H = (hessPos p M).length := by
  have e : (H.entries.map fun e => (e.1, e.2.1)) = hessPos p M := by
    rw [entries_pos, h.1, h.2.1, h.2.2.1]
    exact posList_congr h.2.2.2
  exact ⟨e, by rw [← e, List.length_map, nnz]⟩

theorem nnz_jac {J : Sp F} {v : ℕ → ℕ → F} (hr : J.rowMajor = M.rowMajorJ) (h : IsMat J p.m p.n M.patJ v) :
    (J.entries.map fun e => (e.1, e.2.1)) = jacPos p M ∧ nnz J = (jacPos p M).length := by
  have e : (J.entries.map fun e => (e.1, e.2.1)) = jacPos p M := by
    rw [entries_pos, h.rows, h.cols, hr]
    exact posList_congr h.pat
  exact ⟨e, by rw [← e, List.length_map, nnz]⟩

/-- `get_nlp_info` announces the sizes and makes the members good. -/
theorem getInfo_spec (hs : Steady p M Inv) {uh warm : Bool} (hh : uh = true → p.hessian = true) {w : W σ F} (hi : Inv w.st)
    (hx : w.sol.x.size = p.n) (hz : warm = true → Sized p.n p.m w.sol) :
    ∃ w', getInfo p uh w = some (⟨p.n, p.m, (jacPos p M).length, if uh then (hessPos p M).length else 0⟩, w') ∧ Good p M Inv uh warm w' := by
  obtain ⟨J, s1, e1, h1, hJr, hJ⟩ := hs.dg w.st (zeros p.n) hi rfl
  unfold getInfo
  rw [e1]
  dsimp only
  rw [(nnz_jac hJr hJ).2]
  cases uh with
  | false =>
    have g : Good p M Inv false warm { w with st := s1 } := ⟨h1, by simp, hx, hz⟩
    cases p.hessian <;> exact ⟨_, by simp, g⟩
  | true =>
    rw [hh rfl]
    obtain ⟨A, s2, e2, h2, hA⟩ := hs.d2f s1 (zeros p.n) h1 rfl
    obtain ⟨B, s3, e3, h3, hB⟩ := hs.d2g s2 (zeros p.n) (zeros p.m) h2 rfl rfl
    obtain ⟨H, e4, hr, hc, hrm, hpat, -⟩ := addSp_some (A := { A with rowMajor := false }) (B := B) (hA.rows.trans hB.rows.symm) (hA.cols.trans hB.cols.symm)
    have hH : H.rows = p.n ∧ H.cols = p.n ∧ H.rowMajor = false ∧ ∀ i < p.n, ∀ j < p.n, (H.ent i j).isSome = patH M i j := by
      refine ⟨hr.trans hA.rows, hc.trans hA.cols, hrm, fun i hi j hj => ?_⟩
      rw [hpat i j, hB.pat i hi j hj]
      change ((A.ent i j).isSome || _) = _
      rw [hA.pat i hi j hj]
      rfl
    simp only [if_true, e2, e3, e4, (nnz_hess hH).2]
    exact ⟨_, rfl, h3, fun _ => hH, hx, hz⟩

theorem hessStruct_spec {uh warm : Bool} (hu : uh = true) (hp : p.hessian = true) {w : W σ F} (hw : Good p M Inv uh warm w) :
    ∃ w', hessStruct p uh (hessPos p M).length w = some ((hessPos p M).map Prod.swap, w') ∧ Good p M Inv uh warm w' := by
  obtain ⟨h1, h2, h3, h4⟩ := hw.hess hu
  have hz : (setZero w.H).rows = p.n ∧ (setZero w.H).cols = p.n ∧ (setZero w.H).rowMajor = false ∧
      ∀ i < p.n, ∀ j < p.n, ((setZero w.H).ent i j).isSome = patH M i j :=
    ⟨h1, h2, h3, fun i hi j hj => by rw [← h4 i hi j hj]; simp [setZero]⟩
  unfold hessStruct
  rw [if_pos ⟨hu, hp, (nnz_hess ⟨h1, h2, h3, h4⟩).2⟩]
  refine ⟨{ w with H := setZero w.H }, ?_, hw.inv, fun _ => hz, hw.x, hw.z⟩
  rw [← (nnz_hess hz).1, List.map_map]
  rfl

theorem hessVal_spec (hs : Steady p M Inv) {uh warm : Bool} (hu : uh = true) (hp : p.hessian = true) {w : W σ F} (hw : Good p M Inv uh warm w)
    (x : Vec F) (s : F) (l : Vec F) (hx : x.size = p.n) (hl : l.size = p.m) :
    ∃ V w', hessVal p uh (hessPos p M).length x s l w = some (V, w') ∧ Good p M Inv uh warm w' ∧ V.length = (hessPos p M).length ∧
      ∀ r < p.n, ∀ c < p.n, triplet ((hessPos p M).map Prod.swap) V r c = s * M.d2f x c r + M.d2g x l c r := by
  obtain ⟨h1, h2, h3, h4⟩ := hw.hess hu
  obtain ⟨A, s1, eA, hi1, hA⟩ := hs.d2f w.st x hw.inv hx
  obtain ⟨B, s2, eB, hi2, hB⟩ := hs.d2g s1 x l hi1 hx hl
  obtain ⟨H1, e1, hr1, hc1, hm1, hp1, hv1⟩ := addSp_some (A := setZero w.H) (B := A) (h1.trans hA.rows.symm) (h2.trans hA.cols.symm)
  have hr1' : H1.rows = p.n := hr1.trans h1
  have hc1' : H1.cols = p.n := hc1.trans h2
  obtain ⟨H2, e2, hr2, hc2, hm2, hp2, hv2⟩ := addSp_some (A := scaleSp s H1) (B := B) (hr1'.trans hB.rows.symm) (hc1'.trans hB.cols.symm)
  have hr2' : H2.rows = p.n := hr2.trans hr1'
  have hc2' : H2.cols = p.n := hc2.trans hc1'
  have hH : H2.rows = p.n ∧ H2.cols = p.n ∧ H2.rowMajor = false ∧ ∀ i < p.n, ∀ j < p.n, (H2.ent i j).isSome = patH M i j := by
    refine ⟨hr2', hc2', hm2.trans (hm1.trans h3), fun i hi j hj => ?_⟩
    rw [hp2 i j, hB.pat i hi j hj]
    have : ((scaleSp s H1).ent i j).isSome = (H1.ent i j).isSome := by simp [scaleSp]
    rw [this, hp1 i j, hA.pat i hi j hj]
    have : ((setZero w.H).ent i j).isSome = patH M i j := by rw [← h4 i hi j hj]; simp [setZero]
    rw [this]
    unfold patH
    cases M.patF i j <;> cases M.patG i j <;> rfl
  unfold hessVal
  rw [if_pos ⟨hu, hp, (nnz_hess ⟨h1, h2, h3, h4⟩).2⟩]
  simp only [eA, eB, e1, e2, (nnz_hess hH).2, le_refl, if_true]
  refine ⟨_, _, rfl, ⟨hi2, fun _ => hH, hw.x, hw.z⟩, ?_, fun r hr c hc => ?_⟩
  · rw [List.length_map]
    exact (nnz_hess hH).2
  · have := triplet_swap H2 (r := r) (c := c) (by omega) (by omega)
    have e : ((hessPos p M).map Prod.swap) = H2.entries.map fun e => (e.2.1, e.1) := by
      rw [← (nnz_hess hH).1, List.map_map]
      rfl
    rw [e, this, hv2, scaleSp_val, hv1, setZero_val, zero_add, hA.val c hc r hr, hB.val c hc r hr]

theorem jacStruct_spec (hs : Steady p M Inv) {uh warm : Bool} {w : W σ F} (hw : Good p M Inv uh warm w) :
    ∃ w', jacStruct p (jacPos p M).length w = some (jacPos p M, w') ∧ Good p M Inv uh warm w' := by
  obtain ⟨J, s1, e1, h1, hJr, hJ⟩ := hs.dg w.st (zeros p.n) hw.inv rfl
  unfold jacStruct
  simp only [e1, (nnz_jac hJr hJ).2, if_true]
  exact ⟨{ w with st := s1 }, by rw [(nnz_jac hJr hJ).1], h1, hw.hess, hw.x, hw.z⟩

theorem jacVal_spec (hs : Steady p M Inv) {uh warm : Bool} {w : W σ F} (hw : Good p M Inv uh warm w) (x : Vec F) (hx : x.size = p.n) :
    ∃ V w', jacVal p (jacPos p M).length x w = some (V, w') ∧ Good p M Inv uh warm w' ∧ V.length = (jacPos p M).length ∧
      ∀ r < p.m, ∀ c < p.n, triplet (jacPos p M) V r c = M.dg x r c := by
  obtain ⟨J, s1, e1, h1, hJr, hJ⟩ := hs.dg w.st x hw.inv hx
  unfold jacVal
  simp only [e1, (nnz_jac hJr hJ).2, if_true]
  refine ⟨_, _, rfl, ⟨h1, hw.hess, hw.x, hw.z⟩, ?_, fun r hr c hc => ?_⟩
  · rw [List.length_map]
    exact (nnz_jac hJr hJ).2
  · rw [← (nnz_jac hJr hJ).1, triplet_plain J (by rw [hJ.rows]; exact hr) (by rw [hJ.cols]; exact hc), hJ.val r hr c hc]

theorem put_some {on : Bool} {n : ℕ} {v : Vec F} (h : on = true → v.size = n) : put on n v = some (if on then some v else none) := by
  unfold put
  cases on
  · rfl
  · simp [h rfl]

theorem getStart_spec {uh warm : Bool} {w : W σ F} (hw : Good p M Inv uh warm w) (a b c : Bool) (h : (b = true ∨ c = true) → warm = true) :
    getStart p a b c w = some (if a then some w.sol.x else none, if b then some w.sol.zl else none, if b then some w.sol.zu else none,
      if c then some w.sol.lambda else none) := by
  unfold getStart
  rw [put_some fun _ => hw.x, put_some fun hb => (hw.z (h (.inl hb))).2.1, put_some fun hb => (hw.z (h (.inl hb))).2.2.1,
    put_some fun hc => (hw.z (h (.inr hc))).2.2.2]

/-- A callback that keeps the interface succeeds and keeps the members good. -/
theorem cb_spec (hs : Steady p M Inv) {uh warm : Bool} (hh : uh = true → p.hessian = true) {w : W σ F} (hw : Good p M Inv uh warm w) (c : CB F)
    (hc : c.Ok p.n p.m (jacPos p M).length (hessPos p M).length uh warm) : ∃ w', c.run p uh w = some w' ∧ Good p M Inv uh warm w' := by
  cases c with
  | info =>
    obtain ⟨w', e, h⟩ := getInfo_spec hs hh hw.inv hw.x hw.z
    exact ⟨w', by simp only [CB.run, e, Option.map_some], h⟩
  | bounds =>
    refine ⟨w, ?_, hw⟩
    simp only [CB.run, getBounds]
    rw [if_pos hs.sizes]
    rfl
  | start a b c => exact ⟨w, by simp only [CB.run, getStart_spec hw a b c hc, Option.map_some], hw⟩
  | f x =>
    obtain ⟨s', e, h⟩ := hs.f w.st x hw.inv hc
    exact ⟨{ w with st := s' }, by simp only [CB.run, evalF, e, Option.map_some], h, hw.hess, hw.x, hw.z⟩
  | gradF x =>
    obtain ⟨A, s', e, h, h1, h2, -⟩ := hs.df w.st x hw.inv hc
    refine ⟨{ w with st := s' }, ?_, ⟨h, hw.hess, hw.x, hw.z⟩⟩
    simp only [CB.run, evalGradF, e]
    rw [if_pos ⟨by omega, by rw [h2]; exact hc.le⟩]
    rfl
  | g x =>
    obtain ⟨v, s', e, h, h1, -⟩ := hs.g w.st x hw.inv hc
    refine ⟨{ w with st := s' }, ?_, ⟨h, hw.hess, hw.x, hw.z⟩⟩
    simp only [CB.run, evalG, e]
    rw [if_pos h1]
    rfl
  | jacS k =>
    obtain rfl := hc
    obtain ⟨w', e, h⟩ := jacStruct_spec hs hw
    exact ⟨w', by simp only [CB.run, e, Option.map_some], h⟩
  | jacV k x =>
    obtain ⟨rfl, hx⟩ := hc
    obtain ⟨V, w', e, h, -⟩ := jacVal_spec hs hw x hx
    exact ⟨w', by simp only [CB.run, e, Option.map_some], h⟩
  | hessS k =>
    obtain ⟨rfl, hu⟩ := hc
    obtain ⟨w', e, h⟩ := hessStruct_spec hu (hh hu) hw
    exact ⟨w', by simp only [CB.run, e, Option.map_some], h⟩
  | hessV k x s l =>
    obtain ⟨rfl, hx, hl, hu⟩ := hc
    obtain ⟨V, w', e, h, -⟩ := hessVal_spec hs hu (hh hu) hw x s l hx hl
    exact ⟨w', by simp only [CB.run, e, Option.map_some], h⟩
  | finalize st x zl zu l o i => exact ⟨_, rfl, hw.inv, hw.hess, hc.1, fun _ => hc⟩

theorem run_spec (hs : Steady p M Inv) {uh warm : Bool} (hh : uh = true → p.hessian = true) {w : W σ F} (hw : Good p M Inv uh warm w)
    (l : List (CB F)) (hl : ∀ c ∈ l, c.Ok p.n p.m (jacPos p M).length (hessPos p M).length uh warm) :
    ∃ w', iter (CB.run p uh) l w = some w' ∧ Good p M Inv uh warm w' := by
  induction l generalizing w with
  | nil => exact ⟨w, rfl, hw⟩
  | cons c l ih =>
    obtain ⟨w1, e1, h1⟩ := cb_spec hs hh hw c (hl c (by simp))
    obtain ⟨w2, e2, h2⟩ := ih h1 fun c hc => hl c (by simp [hc])
    exact ⟨w2, by simp only [iter, e1, e2], h2⟩

end Verif.Ipopt
