import Verif.Proofs.Ipopt
import Mathlib.Tactic.Ring
import Mathlib.Tactic.NormNum
import Mathlib.Tactic.Linarith
import Mathlib.Tactic.IntervalCases
import Mathlib.Algebra.Order.Ring.Rat

/-! # C60, C61, C70, C71, C72: the Ipopt interface -/

namespace Verif.Ipopt

open Verif.QP (Ext)
open Verif.QPSpec (lower upper)
open Verif.Sparse Verif.MeshFn
open Verif.NLP (NLPSol NLPStatus)

set_option linter.unusedSectionVars false

variable {σ F : Type*} [Field F] [LinearOrder F] {p : Nlp σ F} {M : Meaning F} {Inv : σ → Prop}

/-- The members after a history of callbacks that starts with `get_nlp_info`. -/
def after (p : Nlp σ F) (s : σ) (junk : NLPStatus) (warm : Option (NLPSol F)) (uh : Bool) (l : List (CB F)) : Option (W σ F) :=
  iter (CB.run p uh) (.info :: l) ⟨s, initSol p.n junk warm, Sp.empty 0 0⟩

theorem after_good (hs : Steady p M Inv) {s : σ} (h0 : Inv s) (junk : NLPStatus) (warm : Option (NLPSol F)) (hw : ∀ v, warm = some v → Sized p.n p.m v)
    {uh : Bool} (hh : uh = true → p.hessian = true) (l : List (CB F))
    (hl : ∀ c ∈ l, c.Ok p.n p.m (jacPos p M).length (hessPos p M).length uh warm.isSome) :
    ∃ w, after p s junk warm uh l = some w ∧ Good p M Inv uh warm.isSome w := by
  have hx : (initSol p.n junk warm).x.size = p.n := by
    cases warm with
    | none => rfl
    | some v => exact (hw v rfl).1
  have hz : warm.isSome = true → Sized p.n p.m (initSol p.n junk warm) := by
    intro h
    cases warm with
    | none => exact absurd h (by simp)
    | some v => exact hw v rfl
  obtain ⟨w1, e1, h1⟩ := getInfo_spec (uh := uh) (warm := warm.isSome) hs hh (w := ⟨s, initSol p.n junk warm, Sp.empty 0 0⟩) h0 hx hz
  obtain ⟨w2, e2, h2⟩ := run_spec hs hh h1 l hl
  refine ⟨w2, ?_, h2⟩
  unfold after
  simp only [iter, CB.run, e1, Option.map_some, e2]

/-! ### C60: the Hessian -/

/-- **C60 (partial).** Let the problem always store the same positions, in the upper triangle, and let Ipopt ask for the structure with
the announced number of entries. Then, after every history of callbacks, the structure call returns the same list `S`, without
repetitions, in the lower triangle, of the announced length; every value call returns a list of that length; and the triplets are the
transpose of `σ d2f + d2g` at the point of the call, whatever was evaluated before. Missing for the full claim: problems whose
Hessians store different positions at different points (`ipopt_hessian_overflow`). -/
theorem ipopt_hessian_partial (hs : Steady p M Inv) (hp : p.hessian = true) :
    ∃ (S : List (ℕ × ℕ)) (nJ : ℕ), S.Nodup ∧ (∀ e ∈ S, e.2 ≤ e.1 ∧ e.1 < p.n) ∧
      ∀ (s : σ) (_ : Inv s) (junk : NLPStatus) (warm : Option (NLPSol F)) (_ : ∀ v, warm = some v → Sized p.n p.m v),
        (∃ w, getInfo p true ⟨s, initSol p.n junk warm, Sp.empty 0 0⟩ = some (⟨p.n, p.m, nJ, S.length⟩, w)) ∧
        ∀ (l : List (CB F)) (_ : ∀ c ∈ l, c.Ok p.n p.m nJ S.length true warm.isSome),
        ∃ w, after p s junk warm true l = some w ∧
          (∃ w', hessStruct p true S.length w = some (S, w')) ∧
          ∀ (x : Vec F) (sigma : F) (lambda : Vec F), x.size = p.n → lambda.size = p.m →
            ∃ V w', hessVal p true S.length x sigma lambda w = some (V, w') ∧ V.length = S.length ∧
              ∀ r < p.n, ∀ c < p.n, triplet S V r c = sigma * M.d2f x c r + M.d2g x lambda c r := by
  have hlen : ((hessPos p M).map Prod.swap).length = (hessPos p M).length := List.length_map _
  refine ⟨(hessPos p M).map Prod.swap, (jacPos p M).length, ?_, ?_, fun s h0 junk warm hw => ⟨?_, fun l hl => ?_⟩⟩
  · refine List.Nodup.map Prod.swap_injective ?_
    let A : Sp F := ⟨p.n, p.n, false, fun i j => if patH M i j then some 0 else none⟩
    have := entries_nodup A
    rw [entries_pos] at this
    have e : (posList A.rows A.cols A.rowMajor fun i j => (A.ent i j).isSome) = hessPos p M := by
      refine posList_congr fun i _ j _ => ?_
      simp only [A]
      split_ifs with h <;> simp [h]
    rwa [e] at this
  · rintro ⟨r, c⟩ he
    rw [List.mem_map] at he
    obtain ⟨⟨i, j⟩, hij, h⟩ := he
    obtain ⟨rfl, rfl⟩ := Prod.mk.inj h
    obtain ⟨h1, h2, h3⟩ := mem_posList.1 hij
    refine ⟨hs.upper _ _ ?_, h2⟩
    simpa [patH] using h3
  · have hx : (initSol p.n junk warm).x.size = p.n := by
      cases warm with
      | none => rfl
      | some v => exact (hw v rfl).1
    obtain ⟨w, e, -⟩ := getInfo_spec (uh := true) (warm := false) hs (fun _ => hp) (w := ⟨s, initSol p.n junk warm, Sp.empty 0 0⟩) h0 hx (by simp)
    exact ⟨w, by rw [e, hlen, if_pos rfl]⟩
  · rw [hlen] at hl ⊢
    obtain ⟨w, e, hg⟩ := after_good hs h0 junk warm hw (fun _ => hp) l hl
    refine ⟨w, e, ?_, fun x sigma lambda hx hl => ?_⟩
    · obtain ⟨w', e', -⟩ := hessStruct_spec rfl hp hg
      exact ⟨w', e'⟩
    · obtain ⟨V, w', e', -, h1, h2⟩ := hessVal_spec hs rfl hp hg x sigma lambda hx hl
      exact ⟨V, w', e', h1, h2⟩

/-- **C60.** If `d2f` and `d2g` hold the upper triangles of symmetric matrices `Hf`, `Hg`, then the matrix that Ipopt assembles from
such triplets is `σ Hf + Hg`. -/
theorem ipopt_lagrangian {n : ℕ} {S : List (ℕ × ℕ)} {V : List F} {sigma : F} {A B Hf Hg : ℕ → ℕ → F}
    (h : ∀ r < n, ∀ c < n, triplet S V r c = sigma * A c r + B c r)
    (hA : ∀ i j, i ≤ j → A i j = Hf i j) (hB : ∀ i j, i ≤ j → B i j = Hg i j) (sf : ∀ i j, Hf i j = Hf j i) (sg : ∀ i j, Hg i j = Hg j i)
    (i j : ℕ) (hi : i < n) (hj : j < n) : symmetric S V i j = sigma * Hf i j + Hg i j := by
  unfold symmetric
  split_ifs with hij
  · rw [h i hi j hj, hA j i hij, hB j i hij, sf, sg]
  · rw [h j hj i hi, hA i j (by omega), hB i j (by omega)]

/-! ### C70: values, gradient and Jacobian -/

/-- **C70.** After every history of callbacks: the objective, its gradient, the constraints and their Jacobian at the point asked for;
the triplets of the Jacobian have the same positions in the structure call and in every value call. -/
theorem ipopt_first_order (hs : Steady p M Inv) (uh : Bool) (hh : uh = true → p.hessian = true) :
    ∃ (S : List (ℕ × ℕ)) (nH : ℕ), (∀ e ∈ S, e.1 < p.m ∧ e.2 < p.n) ∧
      ∀ (s : σ) (_ : Inv s) (junk : NLPStatus) (warm : Option (NLPSol F)) (_ : ∀ v, warm = some v → Sized p.n p.m v),
        (∃ w k, getInfo p uh ⟨s, initSol p.n junk warm, Sp.empty 0 0⟩ = some (⟨p.n, p.m, S.length, k⟩, w) ∧ (uh = true → k = nH)) ∧
        ∀ (l : List (CB F)) (_ : ∀ c ∈ l, c.Ok p.n p.m S.length nH uh warm.isSome),
        ∃ w, after p s junk warm uh l = some w ∧
          (∃ w', jacStruct p S.length w = some (S, w')) ∧
          ∀ x : Vec F, x.size = p.n →
            (∃ w', evalF p x w = some (M.f x, w')) ∧
            (∃ w', evalGradF p x w = some ((List.range p.n).map (M.df x), w')) ∧
            (∃ v w', evalG p x w = some (v, w') ∧ v.size = p.m ∧ ∀ i < p.m, v.val i = M.g x i) ∧
            ∃ V w', jacVal p S.length x w = some (V, w') ∧ V.length = S.length ∧ ∀ r < p.m, ∀ c < p.n, triplet S V r c = M.dg x r c := by
  refine ⟨jacPos p M, (hessPos p M).length, ?_, fun s h0 junk warm hw => ⟨?_, fun l hl => ?_⟩⟩
  · rintro ⟨r, c⟩ he
    obtain ⟨h1, h2, -⟩ := mem_posList.1 he
    exact ⟨h1, h2⟩
  · have hx : (initSol p.n junk warm).x.size = p.n := by
      cases warm with
      | none => rfl
      | some v => exact (hw v rfl).1
    obtain ⟨w, e, -⟩ := getInfo_spec (uh := uh) (warm := false) hs hh (w := ⟨s, initSol p.n junk warm, Sp.empty 0 0⟩) h0 hx (by simp)
    exact ⟨w, _, e, fun h => by rw [if_pos h]⟩
  · obtain ⟨w, e, hg⟩ := after_good hs h0 junk warm hw hh l hl
    refine ⟨w, e, ?_, fun x hx => ⟨?_, ?_, ?_, ?_⟩⟩
    · obtain ⟨w', e', -⟩ := jacStruct_spec hs hg
      exact ⟨w', e'⟩
    · obtain ⟨s', e, -⟩ := hs.f w.st x hg.inv hx
      exact ⟨{ w with st := s' }, by simp only [evalF, e, Option.map_some]⟩
    · obtain ⟨A, s', e, -, h1, h2, h3⟩ := hs.df w.st x hg.inv hx
      refine ⟨{ w with st := s' }, ?_⟩
      simp only [evalGradF, e]
      rw [if_pos ⟨by omega, by rw [h2]; exact hx.le⟩, hx]
      have : (List.range p.n).map (fun i => A.val 0 i) = (List.range p.n).map (M.df x) :=
        List.map_congr_left fun j hj => h3 j (List.mem_range.1 hj)
      rw [this]
    · obtain ⟨v, s', e, -, h1, h2⟩ := hs.g w.st x hg.inv hx
      refine ⟨v, { w with st := s' }, ?_, h1, h2⟩
      simp only [evalG, e]
      rw [if_pos h1]
    · obtain ⟨V, w', e', -, h1, h2⟩ := jacVal_spec hs hg x hx
      exact ⟨V, w', e', h1, h2⟩

/-! ### C71: bounds -/

section
variable [IsStrictOrderedRing F]

/-- **C71.** Ipopt reads every bound below `10¹⁹` and every infinite bound as given; the box does not change. -/
theorem ipopt_bounds (hs : p.xl.size = p.n ∧ p.xu.size = p.n ∧ p.gl.size = p.m ∧ p.gu.size = p.m) :
    ∃ xl xu gl gu, getBounds p = some (xl, xu, gl, gu) ∧ xl.size = p.n ∧ xu.size = p.n ∧ gl.size = p.m ∧ gu.size = p.m ∧
      ∀ i (a : F),
        ((∀ b, p.xl.val i = .fin b → |b| < 10 ^ 19) → (lower (readLower (xl.val i)) a ↔ lower (p.xl.val i) a)) ∧
        ((∀ b, p.xu.val i = .fin b → |b| < 10 ^ 19) → (upper (readUpper (xu.val i)) a ↔ upper (p.xu.val i) a)) ∧
        ((∀ b, p.gl.val i = .fin b → |b| < 10 ^ 19) → (lower (readLower (gl.val i)) a ↔ lower (p.gl.val i) a)) ∧
        ((∀ b, p.gu.val i = .fin b → |b| < 10 ^ 19) → (upper (readUpper (gu.val i)) a ↔ upper (p.gu.val i) a)) := by
  have hpos : (0 : F) < 10 ^ 19 := by positivity
  have kl : ∀ (e : Ext F) (a : F), (∀ b, e = .fin b → |b| < 10 ^ 19) → (lower (readLower (clampL e)) a ↔ lower e a) := by
    intro e a h
    cases e with
    | neg =>
      simp only [clampL, readLower]
      rw [if_pos (by linarith)]
    | pos => rfl
    | fin b =>
      have hb := abs_lt.1 (h b rfl)
      simp only [clampL, readLower]
      rw [max_eq_left (by linarith), if_neg (by linarith [hb.1])]
  have ku : ∀ (e : Ext F) (a : F), (∀ b, e = .fin b → |b| < 10 ^ 19) → (upper (readUpper (clampU e)) a ↔ upper e a) := by
    intro e a h
    cases e with
    | pos =>
      simp only [clampU, readUpper]
      rw [if_pos (by linarith)]
    | neg => rfl
    | fin b =>
      have hb := abs_lt.1 (h b rfl)
      simp only [clampU, readUpper]
      rw [min_eq_left (by linarith), if_neg (by linarith [hb.2])]
  unfold getBounds
  rw [if_pos hs]
  exact ⟨_, _, _, _, rfl, rfl, rfl, rfl, rfl, fun i a => ⟨kl _ a, ku _ a, kl _ a, ku _ a⟩⟩

end

/-! ### C61: the result -/

theorem run_sol {uh : Bool} {c : CB F} {w w' : W σ F} (h : c.run p uh w = some w') :
    (∀ st x zl zu l o i, c ≠ .finalize st x zl zu l o i) → w'.sol = w.sol := by
  intro hc
  cases c with
  | finalize st x zl zu l o i => exact absurd rfl (hc st x zl zu l o i)
  | info =>
    simp only [CB.run, getInfo] at h
    cases h1 : p.dg (zeros p.n) w.st with
    | none => rw [h1] at h; exact absurd h (by simp)
    | some r =>
      rw [h1] at h
      dsimp only at h
      cases hh : p.hessian <;> cases uh <;> simp only [hh, if_true, Bool.false_eq_true, if_false, Option.map_some, Option.map_none, reduceCtorEq] at h
      · obtain rfl := Option.some.inj h; rfl
      · obtain rfl := Option.some.inj h; rfl
      · cases h2 : p.d2f (zeros p.n) r.2 with
        | none => rw [h2] at h; exact absurd h (by simp)
        | some r2 =>
          rw [h2] at h
          dsimp only at h
          cases h3 : p.d2g (zeros p.n) (zeros p.m) r2.2 with
          | none => rw [h3] at h; exact absurd h (by simp)
          | some r3 =>
            rw [h3] at h
            dsimp only at h
            cases h4 : addSp { r2.1 with rowMajor := false } r3.1 with
            | none => rw [h4] at h; exact absurd h (by simp)
            | some H =>
              rw [h4] at h
              obtain rfl := Option.some.inj h
              rfl
  | bounds =>
    simp only [CB.run] at h
    cases h1 : getBounds p with
    | none => rw [h1] at h; exact absurd h (by simp)
    | some r => rw [h1] at h; obtain rfl := Option.some.inj h; rfl
  | start a b c =>
    simp only [CB.run] at h
    cases h1 : getStart p a b c w with
    | none => rw [h1] at h; exact absurd h (by simp)
    | some r => rw [h1] at h; obtain rfl := Option.some.inj h; rfl
  | f x =>
    simp only [CB.run, evalF] at h
    cases h1 : p.f x w.st with
    | none => rw [h1] at h; exact absurd h (by simp)
    | some r => rw [h1] at h; obtain rfl := Option.some.inj h; rfl
  | gradF x =>
    simp only [CB.run, evalGradF] at h
    cases h1 : p.df x w.st with
    | none => rw [h1] at h; exact absurd h (by simp)
    | some r =>
      rw [h1] at h
      dsimp only at h
      by_cases h2 : 0 < r.1.rows ∧ x.size ≤ r.1.cols
      · rw [if_pos h2] at h; obtain rfl := Option.some.inj h; rfl
      · rw [if_neg h2] at h; exact absurd h (by simp)
  | g x =>
    simp only [CB.run, evalG] at h
    cases h1 : p.g x w.st with
    | none => rw [h1] at h; exact absurd h (by simp)
    | some r =>
      rw [h1] at h
      dsimp only at h
      by_cases h2 : r.1.size = p.m
      · rw [if_pos h2] at h; obtain rfl := Option.some.inj h; rfl
      · rw [if_neg h2] at h; exact absurd h (by simp)
  | jacS k =>
    simp only [CB.run, jacStruct] at h
    cases h1 : p.dg (zeros p.n) w.st with
    | none => rw [h1] at h; exact absurd h (by simp)
    | some r =>
      rw [h1] at h
      dsimp only at h
      by_cases h2 : k = nnz r.1
      · rw [if_pos h2] at h; obtain rfl := Option.some.inj h; rfl
      · rw [if_neg h2] at h; exact absurd h (by simp)
  | jacV k x =>
    simp only [CB.run, jacVal] at h
    cases h1 : p.dg x w.st with
    | none => rw [h1] at h; exact absurd h (by simp)
    | some r =>
      rw [h1] at h
      dsimp only at h
      by_cases h2 : k = nnz r.1
      · rw [if_pos h2] at h; obtain rfl := Option.some.inj h; rfl
      · rw [if_neg h2] at h; exact absurd h (by simp)
  | hessS k =>
    simp only [CB.run, hessStruct] at h
    by_cases h2 : uh = true ∧ p.hessian = true ∧ nnz w.H = k
    · rw [if_pos h2] at h; obtain rfl := Option.some.inj h; rfl
    · rw [if_neg h2] at h; exact absurd h (by simp)
  | hessV k x s l =>
    simp only [CB.run, hessVal] at h
    by_cases h2 : uh = true ∧ p.hessian = true ∧ nnz w.H = k
    · rw [if_pos h2] at h
      cases h3 : p.d2f x w.st with
      | none => rw [h3] at h; exact absurd h (by simp)
      | some r =>
        rw [h3] at h
        dsimp only at h
        cases h4 : addSp (setZero w.H) r.1 with
        | none => rw [h4] at h; exact absurd h (by simp)
        | some H1 =>
          rw [h4] at h
          dsimp only at h
          cases h5 : p.d2g x l r.2 with
          | none => rw [h5] at h; exact absurd h (by simp)
          | some r2 =>
            rw [h5] at h
            dsimp only at h
            cases h6 : addSp (scaleSp s H1) r2.1 with
            | none => rw [h6] at h; exact absurd h (by simp)
            | some H2 =>
              rw [h6] at h
              dsimp only at h
              by_cases h7 : nnz H2 ≤ k
              · rw [if_pos h7] at h; obtain rfl := Option.some.inj h; rfl
              · rw [if_neg h7] at h; exact absurd h (by simp)
    · rw [if_neg h2] at h; exact absurd h (by simp)

theorem iter_sol {uh : Bool} {l : List (CB F)} {w w' : W σ F} (h : iter (CB.run p uh) l w = some w') :
    (lastStatus l = none → w'.sol = w.sol) ∧ ∀ st, lastStatus l = some st → w'.sol.status = toStatus st := by
  induction l generalizing w with
  | nil =>
    obtain rfl := Option.some.inj h
    exact ⟨fun _ => rfl, fun st h => absurd h (by simp [lastStatus])⟩
  | cons c l ih =>
    simp only [iter] at h
    cases h1 : c.run p uh w with
    | none => rw [h1] at h; exact absurd h (by simp)
    | some w1 =>
      rw [h1] at h
      obtain ⟨i1, i2⟩ := ih h
      cases h2 : lastStatus l with
      | some r =>
        refine ⟨fun h => absurd h (by simp [lastStatus, h2]), fun st h => ?_⟩
        have : r = st := by simpa [lastStatus, h2] using h
        exact this ▸ i2 r h2
      | none =>
        have i1 := i1 h2
        by_cases hf : ∃ st x zl zu l o i, c = .finalize st x zl zu l o i
        · obtain ⟨st, x, zl, zu, l', o, i, rfl⟩ := hf
          obtain rfl := Option.some.inj h1
          refine ⟨fun h => absurd h (by simp [lastStatus, h2]), fun st' h => ?_⟩
          have : st = st' := by simpa [lastStatus, h2] using h
          rw [i1, ← this]
          rfl
        · push Not at hf
          have e : lastStatus (c :: l) = none := by
            cases c <;> first | exact absurd rfl (hf _ _ _ _ _ _ _) | simp only [lastStatus, h2]
          exact ⟨fun _ => i1.trans (run_sol h1 hf), fun st h => absurd h (by simp [e])⟩

/-- **C61.** What `solve_nlp_ipopt` reports, for every run: if Ipopt delivered a result, its last status is translated, and `Optimal`
means `SUCCESS` or `STOP_AT_ACCEPTABLE_POINT`; if Ipopt delivered none, the solution is the one from before the run. -/
theorem ipopt_status (s : σ) (junk : NLPStatus) (warm : Option (NLPSol F)) (opts : List (String × String)) (cbs : List (CB F)) (r : NLPSol F)
    (h : solveNlpIpopt p s junk warm opts cbs = some r) :
    (∀ st, lastStatus cbs = some st →
      (r.status = .optimal ↔ st = .SUCCESS ∨ st = .STOP_AT_ACCEPTABLE_POINT) ∧ (r.status = .primalInfeasible ↔ st = .LOCAL_INFEASIBILITY) ∧
      (r.status = .dualInfeasible ↔ st = .DIVERGING_ITERATES) ∧ (r.status = .maxIterations ↔ st = .MAXITER_EXCEEDED) ∧
      (r.status = .maxTime ↔ st = .CPUTIME_EXCEEDED)) ∧
    (lastStatus cbs = none → (∀ v, warm = some v → r = v) ∧ (warm = none → r.status = junk)) := by
  unfold solveNlpIpopt at h
  obtain ⟨w', hw', rfl⟩ := Option.map_eq_some_iff.1 h
  obtain ⟨h1, h2⟩ := iter_sol hw'
  refine ⟨fun st hst => ?_, fun hn => ?_⟩
  · rw [h2 st hst]
    cases st <;> simp [toStatus]
  · rw [h1 hn]
    refine ⟨?_, ?_⟩
    · rintro v rfl
      rfl
    · rintro rfl
      rfl

/-- **C61 (partial).** `Optimal` is reported only after Ipopt delivered `SUCCESS` or `STOP_AT_ACCEPTABLE_POINT`, provided Ipopt delivered
a result at all. Missing for the full claim: `STOP_AT_ACCEPTABLE_POINT` is not `SUCCESS` (`ipopt_acceptable_optimal`), and without a result
the status of the warm start is returned, or an uninitialised one (`ipopt_no_result_optimal`). -/
theorem ipopt_optimal_partial (s : σ) (junk : NLPStatus) (warm : Option (NLPSol F)) (opts : List (String × String)) (cbs : List (CB F)) (r : NLPSol F)
    (h : solveNlpIpopt p s junk warm opts cbs = some r) (hd : lastStatus cbs ≠ none) (ho : r.status = .optimal) :
    lastStatus cbs = some .SUCCESS ∨ lastStatus cbs = some .STOP_AT_ACCEPTABLE_POINT := by
  obtain ⟨h1, -⟩ := ipopt_status s junk warm opts cbs r h
  cases hl : lastStatus cbs with
  | none => exact absurd hl hd
  | some st =>
    rcases (h1 st hl).1.1 ho with rfl | rfl
    · exact .inl rfl
    · exact .inr rfl

/-- **C61, violated.** A run that stopped at an acceptable point is reported as `Optimal`, for every problem. -/
theorem ipopt_acceptable_optimal (p : Nlp σ F) (s : σ) (junk : NLPStatus) (warm : Option (NLPSol F)) (opts : List (String × String)) (v : NLPSol F) :
    ∃ r, solveNlpIpopt p s junk warm opts [.finalize .STOP_AT_ACCEPTABLE_POINT v.x v.zl v.zu v.lambda v.objective v.iter] = some r ∧
      r.status = .optimal := ⟨_, rfl, rfl⟩

/-- **C61, violated.** If Ipopt gives up before it delivers a result (a rejected option, a failed initialisation), then the warm start
comes back, and with it the status `Optimal` of the earlier run. -/
theorem ipopt_no_result_optimal (p : Nlp σ F) (s : σ) (junk : NLPStatus) (opts : List (String × String)) (v : NLPSol F) (hv : v.status = .optimal) :
    ∃ r, solveNlpIpopt p s junk (some v) opts [] = some r ∧ r.status = .optimal := ⟨v, rfl, hv⟩

/-- A time limit on the wall clock is reported as `Unknown`, not as `MaxTime`. -/
theorem ipopt_walltime (p : Nlp σ F) (s : σ) (junk : NLPStatus) (warm : Option (NLPSol F)) (opts : List (String × String)) (v : NLPSol F) :
    ∃ r, solveNlpIpopt p s junk warm opts [.finalize .WALLTIME_EXCEEDED v.x v.zl v.zu v.lambda v.objective v.iter] = some r ∧
      r.status = .unknown := ⟨_, rfl, rfl⟩

/-! ### C72: options and starting point -/

/-- **C72.** A run that starts from a given solution hands exactly that solution to Ipopt, as long as no result was delivered. -/
theorem ipopt_start (hs : Steady p M Inv) {s : σ} (h0 : Inv s) (junk : NLPStatus) (v : NLPSol F) (hv : Sized p.n p.m v) {uh : Bool}
    (hh : uh = true → p.hessian = true) (l : List (CB F))
    (hl : ∀ c ∈ l, c.Ok p.n p.m (jacPos p M).length (hessPos p M).length uh true) (hn : lastStatus l = none) :
    ∃ w, after p s junk (some v) uh l = some w ∧ getStart p true true true w = some (some v.x, some v.zl, some v.zu, some v.lambda) := by
  obtain ⟨w, e, hg⟩ := after_good hs h0 junk (some v) (fun u h => Option.some.inj h ▸ hv) hh l hl
  refine ⟨w, e, ?_⟩
  have hsol : w.sol = v := (iter_sol e).1 (by simp [lastStatus, hn])
  rw [getStart_spec hg true true true (fun _ => rfl), hsol]
  rfl

/-- **C72.** Without a given solution the run starts from zero, and asking for multipliers is undefined if there are any. -/
theorem ipopt_cold_start (hs : Steady p M Inv) {s : σ} (h0 : Inv s) (junk : NLPStatus) {uh : Bool} (hh : uh = true → p.hessian = true) (l : List (CB F))
    (hl : ∀ c ∈ l, c.Ok p.n p.m (jacPos p M).length (hessPos p M).length uh false) (hn : lastStatus l = none) :
    ∃ w, after p s junk none uh l = some w ∧ (∃ x, getStart p true false false w = some (some x, none, none, none) ∧ x.size = p.n ∧ ∀ i, x.val i = 0) ∧
      (p.n ≠ 0 → ∀ a c, getStart p a true c w = none) ∧ (p.m ≠ 0 → ∀ a b, getStart p a b true w = none) := by
  obtain ⟨w, e, hg⟩ := after_good hs h0 junk none (fun u h => absurd h (by simp)) hh l hl
  have hsol : w.sol = initSol p.n junk none := (iter_sol e).1 (by simp [lastStatus, hn])
  refine ⟨w, e, ⟨w.sol.x, ?_, hg.x, fun i => by rw [hsol]; rfl⟩, fun h a c => ?_, fun h a b => ?_⟩
  · rw [getStart_spec hg true false false (by simp)]
    rfl
  · have hz : put true p.n w.sol.zl = none := by
      have h0 : ¬ w.sol.zl.size = p.n := by rw [hsol]; exact fun e => h e.symm
      unfold put
      rw [if_pos rfl, if_neg h0]
    unfold getStart
    rw [hz]
    rcases put a p.n w.sol.x with _ | _ <;> rfl
  · have hz : put true p.m w.sol.lambda = none := by
      have h0 : ¬ w.sol.lambda.size = p.m := by rw [hsol]; exact fun e => h e.symm
      unfold put
      rw [if_pos rfl, if_neg h0]
    unfold getStart
    rw [hz]
    rcases put a p.n w.sol.x with _ | _ <;> rcases put b p.n w.sol.zl with _ | _ <;> rcases put b p.n w.sol.zu with _ | _ <;> rfl

theorem optValue_eq {key dflt v : String} {opts : List (String × String)} (h : ∀ o ∈ opts, o.1 = key → o.2 = v) (d : String)
    (hd : (∃ o ∈ opts, o.1 = key) ∨ d = v) : optValue key d opts = v := by
  induction opts generalizing d with
  | nil =>
    rcases hd with ⟨o, ho, -⟩ | rfl
    · simp at ho
    · rfl
  | cons o l ih =>
    have h' : ∀ o ∈ l, o.1 = key → o.2 = v := fun o ho => h o (by simp [ho])
    change optValue key (if o.1 == key then o.2 else d) l = v
    by_cases hk : o.1 = key
    · rw [if_pos (by simpa using hk)]
      exact ih h' _ (.inr (h o (by simp) hk))
    · rw [if_neg (by simpa using hk)]
      refine ih h' _ ?_
      rcases hd with ⟨o', ho', hk'⟩ | rfl
      · rcases List.mem_cons.1 ho' with rfl | h1
        · exact absurd hk' hk
        · exact .inl ⟨o', h1, hk'⟩
      · exact .inr rfl

/-- **C72 (partial).** If the option `hessian_approximation` is given, and not with different values, then the wrapper computes Hessians
exactly when Ipopt will ask for them. Missing for the full claim: without the option Ipopt's default is `exact` but the wrapper announces
an empty Hessian (`ipopt_default_hessian`); with two values the wrapper takes the first and Ipopt the last (`ipopt_two_values`). -/
theorem ipopt_hessian_option_partial (opts : List (String × String)) (v : String) (hv : ∃ o ∈ opts, o.1 = "hessian_approximation")
    (h : ∀ o ∈ opts, o.1 = "hessian_approximation" → o.2 = v) :
    useHessianOf opts = true ↔ optValue "hessian_approximation" "exact" opts = "exact" := by
  rw [optValue_eq (dflt := "exact") h _ (.inl hv)]
  unfold useHessianOf
  cases hf : opts.find? fun o => o.1 == "hessian_approximation" with
  | none =>
    obtain ⟨o, ho, hk⟩ := hv
    have := List.find?_eq_none.1 hf o ho
    simp [hk] at this
  | some o =>
    have h1 := List.mem_of_find?_eq_some hf
    have h2 := List.find?_some hf
    have h3 := h o h1 (by simpa using h2)
    simp [h3]

/-- **C72, violated.** Without the option, Ipopt's own setting is `exact`, but a Hessian without entries is announced, and asking for it
is a failed assertion, for every problem. -/
theorem ipopt_default_hessian (hs : Steady p M Inv) {s : σ} (h0 : Inv s) (junk : NLPStatus) (opts : List (String × String))
    (h : ∀ o ∈ opts, o.1 ≠ "hessian_approximation") :
    optValue "hessian_approximation" "exact" opts = "exact" ∧
    (∃ i w, getInfo p (useHessianOf opts) ⟨s, initSol p.n junk none, Sp.empty 0 0⟩ = some (i, w) ∧ i.nnzHess = 0) ∧
    ∀ (w : W σ F) k x sigma l, hessStruct p (useHessianOf opts) k w = none ∧ hessVal p (useHessianOf opts) k x sigma l w = none := by
  have e : useHessianOf opts = false := by
    unfold useHessianOf
    rw [List.find?_eq_none.2 fun o ho => by simpa using h o ho]
  refine ⟨optValue_eq (dflt := "exact") (fun o ho hk => absurd hk (h o ho)) _ (.inr rfl), ?_, fun w k x sigma l => ?_⟩
  · obtain ⟨w, e', -⟩ := getInfo_spec (uh := false) (warm := false) hs (by simp) (w := ⟨s, initSol p.n junk none, Sp.empty 0 0⟩) h0 rfl (by simp)
    rw [e]
    exact ⟨_, w, e', rfl⟩
  · rw [e]
    exact ⟨by simp [hessStruct], by simp [hessVal]⟩

/-- **C72, violated.** -/
theorem ipopt_two_values : let opts := [("hessian_approximation", "limited-memory"), ("hessian_approximation", "exact")]
    useHessianOf opts = false ∧ optValue "hessian_approximation" "exact" opts = "exact" := by
  decide

/-! ### Examples -/

/-- Minimise `x₀² + x₀ x₁` subject to `0 ≤ x₀ x₁`; the Hessian of the objective stores a zero on the diagonal. -/
def ex : Nlp Unit ℚ where
  n := 2
  m := 1
  xl := ⟨2, fun _ => .neg⟩
  xu := ⟨2, fun i => if i = 0 then .fin 3 else .pos⟩
  gl := ⟨1, fun _ => .fin 0⟩
  gu := ⟨1, fun _ => .pos⟩
  f := fun x s => some (x.val 0 ^ 2 + x.val 0 * x.val 1, s)
  df := fun x s => some (⟨1, 2, true, fun _ j => if j = 0 then some (2 * x.val 0 + x.val 1) else some (x.val 0)⟩, s)
  g := fun x s => some (⟨1, fun _ => x.val 0 * x.val 1⟩, s)
  dg := fun x s => some (⟨1, 2, true, fun _ j => if j = 0 then some (x.val 1) else some (x.val 0)⟩, s)
  hessian := true
  d2f := fun _ s => some (⟨2, 2, true, fun i j => if i = 0 ∧ j = 0 then some 2 else if i = 0 ∧ j = 1 then some 1 else if i = 1 ∧ j = 1 then some 0 else none⟩, s)
  d2g := fun _ l s => some (⟨2, 2, true, fun i j => if i = 0 ∧ j = 1 then some (l.val 0) else none⟩, s)

/-- What it means, written out. -/
def exM : Meaning ℚ where
  f := fun x => x.val 0 ^ 2 + x.val 0 * x.val 1
  df := fun x j => if j = 0 then 2 * x.val 0 + x.val 1 else x.val 0
  g := fun x _ => x.val 0 * x.val 1
  dg := fun x _ j => if j = 0 then x.val 1 else x.val 0
  d2f := fun _ i j => if i = 0 ∧ j = 0 then 2 else if i = 0 ∧ j = 1 then 1 else 0
  d2g := fun _ l i j => if i = 0 ∧ j = 1 then l.val 0 else 0
  patJ := fun _ _ => true
  rowMajorJ := true
  patF := fun i j => decide (i ≤ j ∧ j < 2)
  patG := fun i j => decide (i = 0 ∧ j = 1)

theorem ex_steady : Steady ex exM fun _ => True where
  f := fun s x _ _ => ⟨s, rfl, trivial⟩
  df := fun s x _ _ => ⟨_, s, rfl, trivial, rfl, rfl, fun j hj => by
    change j < 2 at hj
    interval_cases j <;> rfl⟩
  g := fun s x _ _ => ⟨_, s, rfl, trivial, rfl, fun i _ => rfl⟩
  dg := fun s x _ _ => ⟨_, s, rfl, trivial, rfl, rfl, rfl,
    fun i _ j hj => by
      change j < 2 at hj
      interval_cases j <;> rfl,
    fun i _ j hj => by
      change j < 2 at hj
      interval_cases j <;> rfl⟩
  d2f := fun s x _ _ => ⟨_, s, rfl, trivial, rfl, rfl,
    fun i hi j hj => by
      change i < 2 at hi
      change j < 2 at hj
      interval_cases i <;> interval_cases j <;> rfl,
    fun i hi j hj => by
      change i < 2 at hi
      change j < 2 at hj
      interval_cases i <;> interval_cases j <;> rfl⟩
  d2g := fun s x l _ _ _ => ⟨_, s, rfl, trivial, rfl, rfl,
    fun i hi j hj => by
      change i < 2 at hi
      change j < 2 at hj
      interval_cases i <;> interval_cases j <;> rfl,
    fun i hi j hj => by
      change i < 2 at hi
      change j < 2 at hj
      interval_cases i <;> interval_cases j <;> rfl⟩
  upper := by
    rintro i j (h | h)
    · exact (of_decide_eq_true h).1
    · have := of_decide_eq_true h
      omega
  sizes := ⟨rfl, rfl, rfl, rfl⟩

/-- The hypotheses of the theorems hold for `ex`. -/
example := ipopt_hessian_partial ex_steady rfl
example := ipopt_first_order ex_steady true fun _ => rfl
example := ipopt_start ex_steady (s := ()) trivial .unknown ⟨.optimal, 4, zeros 2, zeros 2, zeros 2, zeros 1, 0⟩ ⟨rfl, rfl, rfl, rfl⟩ (uh := true)
  (fun _ => rfl) [.start true true true] (by simp [CB.Ok]) rfl
example := ipopt_cold_start ex_steady (s := ()) trivial .unknown (uh := true) (fun _ => rfl) [.bounds] (by simp [CB.Ok]) rfl
example := ipopt_default_hessian ex_steady (s := ()) trivial .unknown [("print_level", "0")] (by decide)
example := ipopt_hessian_option_partial [("mu_strategy", "adaptive"), ("hessian_approximation", "exact")] "exact" (by decide) (by decide)

/-- Evaluated: structure and values at `x = (1, 2)`, `σ = 2`, `λ = 5`, after an evaluation elsewhere. -/
example : (iter (CB.run ex true) [.info, .hessS 3, .hessV 3 ⟨2, fun _ => 7⟩ 1 ⟨1, fun _ => 9⟩] ⟨(), initSol 2 .unknown none, Sp.empty 0 0⟩).bind
    (fun w => (hessStruct ex true 3 w).bind fun r => (hessVal ex true 3 ⟨2, fun i => i + 1⟩ 2 ⟨1, fun _ => 5⟩ w).map fun v => (r.1, v.1)) =
    some ([(0, 0), (1, 0), (1, 1)], [4, 7, 0]) := by
  decide +kernel

/-- A run with a result. -/
example : (solveNlpIpopt ex () .optimal none [("hessian_approximation", "exact")]
    [.info, .bounds, .start true false false, .f (zeros 2), .gradF (zeros 2), .g (zeros 2), .jacS 2, .jacV 2 (zeros 2), .hessS 3,
      .hessV 3 (zeros 2) 1 (zeros 1), .finalize .LOCAL_INFEASIBILITY (zeros 2) (zeros 2) (zeros 2) (zeros 1) 0 1]).map NLPSol.status =
    some .primalInfeasible := by
  decide +kernel

/-- Minimise `x³`; the Hessian `6 x` is stored only where it is not zero, so nothing is stored at the origin. -/
def cubic : Nlp Unit ℚ where
  n := 1
  m := 0
  xl := ⟨1, fun _ => .neg⟩
  xu := ⟨1, fun _ => .pos⟩
  gl := ⟨0, fun _ => .neg⟩
  gu := ⟨0, fun _ => .pos⟩
  f := fun x s => some (x.val 0 ^ 3, s)
  df := fun x s => some (⟨1, 1, true, fun _ _ => some (3 * x.val 0 ^ 2)⟩, s)
  g := fun _ s => some (⟨0, fun _ => 0⟩, s)
  dg := fun _ s => some (⟨0, 1, true, fun _ _ => none⟩, s)
  hessian := true
  d2f := fun x s => some (⟨1, 1, true, fun _ _ => if x.val 0 = 0 then none else some (6 * x.val 0)⟩, s)
  d2g := fun _ _ s => some (⟨1, 1, true, fun _ _ => none⟩, s)

/-- **C60, violated** for problems that store different positions at different points: the announced Hessian has no entry, and the value
call at `1` writes past the end of the buffer. -/
theorem ipopt_hessian_overflow :
    (∃ w, getInfo cubic true ⟨(), initSol 1 .unknown none, Sp.empty 0 0⟩ = some (⟨1, 0, 0, 0⟩, w)) ∧
    (after cubic () .unknown none true [.hessS 0, .hessV 0 ⟨1, fun _ => 1⟩ 1 (zeros 0)]).isNone = true :=
  ⟨⟨_, rfl⟩, by decide +kernel⟩

/-- **C71, violated** for finite bounds from `10¹⁹` on: Ipopt reads them as infinite. -/
theorem ipopt_bounds_large :
    ¬ lower (.fin (-(10 ^ 19) : ℚ)) (-(2 * 10 ^ 19)) ∧ lower (readLower (clampL (.fin (-(10 ^ 19) : ℚ)))) (-(2 * 10 ^ 19)) := by
  refine ⟨fun h => absurd (show (-(10 ^ 19) : ℚ) ≤ -(2 * 10 ^ 19) from h) (by norm_num), ?_⟩
  have e : max (-(10 ^ 19) : ℚ) (-(2 * 10 ^ 19)) = -(10 ^ 19) := max_eq_left (by norm_num)
  simp only [clampL, readLower, e, le_refl, if_true]
  trivial

/-- The bounds of `ex` satisfy the hypotheses of `ipopt_bounds`. -/
example : (∀ i b, ex.xl.val i = .fin b → |b| < 10 ^ 19) ∧ ∀ i b, ex.xu.val i = .fin b → |b| < 10 ^ 19 := by
  refine ⟨fun i b h => absurd h (by simp [ex]), fun i b h => ?_⟩
  by_cases hi : i = 0
  · have : b = 3 := by simpa [ex, hi] using h.symm
    rw [this]
    norm_num
  · exact absurd h (by simp [ex, hi])

end Verif.Ipopt
