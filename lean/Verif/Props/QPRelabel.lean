import Verif.Proofs.QPRelabel
import Verif.Proofs.QPWitness
import Verif.Props.QPAlways

/-! # C113: the answer of the QP solver does not depend on how the program is written down -/

set_option linter.unusedSectionVars false

namespace Verif.QP

open Matrix Verif.QPSpec

variable {F : Type*} [Field F] [LinearOrder F] [IsStrictOrderedRing F] {n m : ℕ} {g : Relabel n m}

/-! ### Polishing -/

theorem relabel_low (eps : F) (p : Pbm F n m) (y : Fin m → F) (k : Fin m) :
    lowActive eps (g.pbm p) (g.vy y) k = if g.fy k then upActive eps p y (g.py k) else lowActive eps p y (g.py k) := by
  unfold lowActive upActive
  cases hf : g.fy k
  · simp [Relabel.pbm, Relabel.vy, hf, sg]
  · simp only [Relabel.pbm, Relabel.vy, hf, sg, if_true]
    congr 1
    · rw [decide_eq_decide]
      constructor <;> intro h <;> linarith
    · cases p.u (g.py k) <;> rfl

theorem relabel_up (eps : F) (p : Pbm F n m) (y : Fin m → F) (k : Fin m) :
    upActive eps (g.pbm p) (g.vy y) k = if g.fy k then lowActive eps p y (g.py k) else upActive eps p y (g.py k) := by
  unfold lowActive upActive
  cases hf : g.fy k
  · simp [Relabel.pbm, Relabel.vy, hf, sg]
  · simp only [Relabel.pbm, Relabel.vy, hf, sg, if_true]
    congr 1
    · rw [decide_eq_decide]
      constructor <;> intro h <;> linarith
    · cases p.l (g.py k) <;> rfl

theorem mem_activeRows {eps : F} {p : Pbm F n m} {y : Fin m → F} {k : Fin m} :
    k ∈ activeRows eps p y ↔ lowActive eps p y k = true ∨ upActive eps p y k = true := by
  unfold activeRows
  rw [List.mem_append, List.mem_filter, List.mem_filter]
  simp [List.mem_finRange]

theorem relabel_active {eps : F} {p : Pbm F n m} {y : Fin m → F} {k : Fin m} :
    k ∈ activeRows eps (g.pbm p) (g.vy y) ↔ g.py k ∈ activeRows eps p y := by
  rw [mem_activeRows, mem_activeRows, relabel_low, relabel_up]
  cases g.fy k <;> simp [or_comm]

/-- An entry of the list of active rows lies in its first part when its row is at the lower bound. -/
theorem active_low {eps : F} (heps : 0 ≤ eps) (p : Pbm F n m) (y : Fin m → F) (k : Fin (activeRows eps p y).length) :
    (k : ℕ) < ((List.finRange m).filter (lowActive eps p y)).length ↔ lowActive eps p y ((activeRows eps p y).get k) = true := by
  constructor
  · intro h
    have : (activeRows eps p y).get k = ((List.finRange m).filter (lowActive eps p y))[(k : ℕ)] := by
      simp only [activeRows, List.get_eq_getElem]
      exact List.getElem_append_left h
    rw [this]
    exact (List.mem_filter.1 (List.getElem_mem h)).2
  · intro h
    by_contra hc
    have hlen : (activeRows eps p y).length = ((List.finRange m).filter (lowActive eps p y)).length +
      ((List.finRange m).filter (upActive eps p y)).length := by simp [activeRows]
    have hk : (k : ℕ) - ((List.finRange m).filter (lowActive eps p y)).length < ((List.finRange m).filter (upActive eps p y)).length := by
      have := k.2
      omega
    have : (activeRows eps p y).get k = ((List.finRange m).filter (upActive eps p y))[(k : ℕ) - ((List.finRange m).filter (lowActive eps p y)).length] := by
      simp only [activeRows, List.get_eq_getElem]
      exact List.getElem_append_right (not_lt.1 hc)
    rw [this] at h
    have hu := (List.mem_filter.1 (List.getElem_mem hk)).2
    generalize ((List.finRange m).filter (upActive eps p y))[(k : ℕ) - ((List.finRange m).filter (lowActive eps p y)).length] = i at h hu
    unfold lowActive at h
    unfold upActive at hu
    simp only [Bool.and_eq_true, decide_eq_true_eq] at h hu
    linarith [h.1, hu.1]

/-- The active rows of the two programs correspond to each other. -/
theorem active_equiv {eps : F} (heps : 0 ≤ eps) (g : Relabel n m) (p : Pbm F n m) (y : Fin m → F) :
    ∃ e : Fin (activeRows eps (g.pbm p) (g.vy y)).length ≃ Fin (activeRows eps p y).length,
      ∀ k, (activeRows eps p y).get (e k) = g.py ((activeRows eps (g.pbm p) (g.vy y)).get k) := by
  have h1 : ∀ k : Fin (activeRows eps (g.pbm p) (g.vy y)).length, ∃ j : Fin (activeRows eps p y).length,
      (activeRows eps p y).get j = g.py ((activeRows eps (g.pbm p) (g.vy y)).get k) := fun k =>
    List.mem_iff_get.1 (relabel_active.1 (List.get_mem _ k))
  choose f hf using h1
  refine ⟨Equiv.ofBijective f ⟨fun a b hab => ?_, fun j => ?_⟩, hf⟩
  · have := (hf a).symm.trans ((congrArg _ hab).trans (hf b))
    exact (activeRows_nodup heps (g.pbm p) (g.vy y)).injective_get (g.py.injective this)
  · have hm : g.py.symm ((activeRows eps p y).get j) ∈ activeRows eps (g.pbm p) (g.vy y) := by
      rw [relabel_active, Equiv.apply_symm_apply]
      exact List.get_mem _ j
    obtain ⟨k, hk⟩ := List.mem_iff_get.1 hm
    refine ⟨k, (activeRows_nodup heps p y).injective_get ?_⟩
    rw [hf, hk, Equiv.apply_symm_apply]

/-- Both parts of a vector of the reduced system. -/
def pvec (g : Relabel n m) {L L' : List (Fin m)} (e : Fin L'.length ≃ Fin L.length) (v : Fin n ⊕ Fin L.length → F) :
    Fin n ⊕ Fin L'.length → F
  | .inl j => sg (g.fx j) * v (.inl (g.px j))
  | .inr k => sg (g.fy (L'.get k)) * v (.inr (e k))

theorem pvec_add {L L' : List (Fin m)} (e : Fin L'.length ≃ Fin L.length) (v w : Fin n ⊕ Fin L.length → F) :
    pvec g e (v + w) = pvec g e v + pvec g e w := by
  funext a; cases a <;> simp only [pvec, Pi.add_apply] <;> ring

theorem pvec_sub {L L' : List (Fin m)} (e : Fin L'.length ≃ Fin L.length) (v w : Fin n ⊕ Fin L.length → F) :
    pvec g e (v - w) = pvec g e v - pvec g e w := by
  funext a; cases a <;> simp only [pvec, Pi.sub_apply] <;> ring

theorem relabel_polishH {p : Pbm F n m} (hP : Lin.PSD p.P) (s : Scaling F n m) {L L' : List (Fin m)}
    (e : Fin L'.length ≃ Fin L.length) (he : ∀ k, L.get (e k) = g.py (L'.get k)) (v : Fin n ⊕ Fin L.length → F) :
    symUpper (polishH (g.pbm p) (g.scaling s) L') *ᵥ pvec g e v = pvec g e (symUpper (polishH p s L) *ᵥ v) := by
  have e1 : (g.scaling s).unX (fun i => pvec g e v (.inl i)) = g.vx (s.unX fun i => v (.inl i)) :=
    unX_vx (g := g) s fun i => v (.inl i)
  funext a
  cases a with
  | inl j =>
    rw [polishH_inl (relabel_psd hP).1]
    show _ = sg (g.fx j) * (symUpper (polishH p s L) *ᵥ v) (.inl (g.px j))
    rw [polishH_inl hP.1, e1, relabel_P, ← Equiv.sum_comp e]
    have : ∑ k : Fin L'.length, (g.pbm p).A (L'.get k) j * ((g.scaling s).sy (L'.get k) * pvec g e v (.inr k)) =
        sg (g.fx j) * ∑ k : Fin L'.length, p.A (L.get (e k)) (g.px j) * (s.sy (L.get (e k)) * v (.inr (e k))) := by
      rw [Finset.mul_sum]
      refine Finset.sum_congr rfl fun k _ => ?_
      rw [he]
      simp only [Relabel.pbm, Relabel.scaling, pvec]
      linear_combination sg (g.fx j) * p.A (g.py (L'.get k)) (g.px j) * s.sy (g.py (L'.get k)) * v (.inr (e k)) *
        sg_sq (F := F) (g.fy (L'.get k))
    rw [this]
    simp only [Relabel.vx, Relabel.scaling]
    ring
  | inr k =>
    rw [polishH_inr]
    show _ = sg (g.fy (L'.get k)) * (symUpper (polishH p s L) *ᵥ v) (.inr (e k))
    rw [polishH_inr, e1, relabel_A, he]
    simp only [Relabel.vy, Relabel.scaling]
    ring

theorem relabel_reg {L L' : List (Fin m)} (e : Fin L'.length ≃ Fin L.length) (delta : F) (v : Fin n ⊕ Fin L.length → F) :
    symUpper (polishReg delta L'.length) *ᵥ pvec g e v = pvec g e (symUpper (polishReg delta L.length) *ᵥ v) := by
  funext a
  cases a with
  | inl j =>
    rw [symUpper_reg]
    show _ = sg (g.fx j) * (symUpper (polishReg delta L.length) *ᵥ v) (.inl (g.px j))
    rw [symUpper_reg]
    simp only [pvec, sgn]; ring
  | inr k =>
    rw [symUpper_reg]
    show _ = sg (g.fy (L'.get k)) * (symUpper (polishReg delta L.length) *ᵥ v) (.inr (e k))
    rw [symUpper_reg]
    simp only [pvec, sgn]; ring

theorem val_flip (e : Ext F) : e.flip.val = -e.val := by cases e <;> simp [Ext.flip, Ext.val]

theorem relabel_polishRhs {eps : F} (heps : 0 ≤ eps) (p : Pbm F n m) (s : Scaling F n m) (y : Fin m → F)
    (e : Fin (activeRows eps (g.pbm p) (g.vy y)).length ≃ Fin (activeRows eps p y).length)
    (he : ∀ k, (activeRows eps p y).get (e k) = g.py ((activeRows eps (g.pbm p) (g.vy y)).get k)) :
    polishRhs (g.pbm p) (g.scaling s) ((List.finRange m).filter (lowActive eps (g.pbm p) (g.vy y))).length
        (activeRows eps (g.pbm p) (g.vy y)) =
      pvec g e (polishRhs p s ((List.finRange m).filter (lowActive eps p y)).length (activeRows eps p y)) := by
  funext a
  cases a with
  | inl j => simp only [polishRhs, pvec, Relabel.scaling, Relabel.pbm, Relabel.vx]; ring
  | inr k =>
    have h1 := active_low heps (g.pbm p) (g.vy y) k
    have h2 := active_low heps p y (e k)
    have hm : lowActive eps p y (g.py ((activeRows eps (g.pbm p) (g.vy y)).get k)) = true ∨
        upActive eps p y (g.py ((activeRows eps (g.pbm p) (g.vy y)).get k)) = true := by
      rw [← mem_activeRows, ← he]
      exact List.get_mem _ _
    have hx : ¬ (lowActive eps p y (g.py ((activeRows eps (g.pbm p) (g.vy y)).get k)) = true ∧
        upActive eps p y (g.py ((activeRows eps (g.pbm p) (g.vy y)).get k)) = true) := by
      rintro ⟨h, hu⟩
      unfold lowActive at h
      unfold upActive at hu
      simp only [Bool.and_eq_true, decide_eq_true_eq] at h hu
      linarith [h.1, hu.1]
    simp only [polishRhs, pvec]
    rw [he] at h2
    rw [he]
    rw [relabel_low] at h1
    simp only [h1, h2]
    generalize (activeRows eps (g.pbm p) (g.vy y)).get k = i at hm hx ⊢
    cases hf : g.fy i
    · simp [Relabel.pbm, Relabel.scaling, hf, sg]
    · simp only [Relabel.pbm, Relabel.scaling, hf, if_true, sg, val_flip]
      by_cases hl : lowActive eps p y (g.py i) = true
      · have hu : ¬ upActive eps p y (g.py i) = true := fun hu => hx ⟨hl, hu⟩
        simp [hl, hu]
      · have hu : upActive eps p y (g.py i) = true := hm.resolve_left hl
        simp [hl, hu]

theorem relabel_refine {ι κ : Type*} [Fintype ι] [Fintype κ] {H : Matrix ι ι F} {H' : Matrix κ κ F} {h : ι → F} {h' : κ → F}
    {slv : (ι → F) → ι → F} {slv' : (κ → F) → κ → F} {φ : (ι → F) → κ → F} (hadd : ∀ a b, φ (a + b) = φ a + φ b)
    (hsub : ∀ a b, φ (a - b) = φ a - φ b) (hH : ∀ v, H' *ᵥ φ v = φ (H *ᵥ v)) (hh : h' = φ h)
    (hs : ∀ b, slv' (φ b) = φ (slv b)) (k : ℕ) (t : ι → F) : refine H' h' slv' k (φ t) = φ (refine H h slv k t) := by
  induction k generalizing t with
  | zero => rfl
  | succ k ih => rw [refine, refine, hH, hh, ← hsub, hs, ← hadd, ← hh, ih]

theorem relabel_polish {env : Env F n} {prm : Params F} {p : Pbm F n m} {s : Scaling F n m} (hl : LdltOk env)
    (hf : FactorsAll env) (hd : 0 < prm.delta) (heps : 0 ≤ env.eps) (hP : Lin.PSD p.P) (hs : s.Pos) (y : Fin m → F) :
    ∃ x' y', polish env prm p s y = .ok (some (x', y')) ∧
      polish env prm (g.pbm p) (g.scaling s) (g.vy y) = .ok (some (g.vx x', g.vy y')) := by
  obtain ⟨e, he⟩ := active_equiv heps g p y
  have hP' := relabel_psd (g := g) hP
  have hs' := relabel_scaling_pos (g := g) hs
  have hdet' := qp_polish_nonsingular hd hP' hs' (activeRows env.eps (g.pbm p) (g.vy y))
  obtain ⟨slv, hslv⟩ := Option.ne_none_iff_exists'.1 (hf _ _ (qp_polish_nonsingular hd hP hs (activeRows env.eps p y)))
  obtain ⟨slv', hslv'⟩ := Option.ne_none_iff_exists'.1 (hf _ _ hdet')
  have hsl : ∀ b, slv' (pvec g e b) = pvec g e (slv b) := by
    intro b
    have h1 := hl _ _ _ hslv b
    have h2 := hl _ _ _ hslv' (pvec g e b)
    have hinj := Matrix.mulVec_injective_of_isUnit ((Matrix.isUnit_iff_isUnit_det _).2 (isUnit_iff_ne_zero.2 hdet'))
    apply hinj
    show _ *ᵥ _ = _ *ᵥ _
    rw [h2, symUpper_add, add_mulVec, relabel_polishH hP s e he, relabel_reg, ← pvec_add, ← add_mulVec, ← symUpper_add, h1]
  have hz : (0 : Fin n ⊕ Fin (activeRows env.eps (g.pbm p) (g.vy y)).length → F) = pvec g e 0 := by
    funext a; cases a <;> simp [pvec]
  have hr := relabel_refine (slv' := slv') (h' := polishRhs (g.pbm p) (g.scaling s)
      ((List.finRange m).filter (lowActive env.eps (g.pbm p) (g.vy y))).length (activeRows env.eps (g.pbm p) (g.vy y)))
    (fun a b => pvec_add (g := g) e a b) (pvec_sub e) (relabel_polishH hP s e he) (relabel_polishRhs heps p s y e he) hsl
    prm.polishIter 0
  rw [polish_eq, polish_eq]
  unfold polishWith
  rw [hslv, hslv']
  simp only
  rw [hz, hr]
  refine ⟨_, _, rfl, ?_⟩
  simp only [Out.ok.injEq, Option.some.injEq, Prod.mk.injEq]
  refine ⟨rfl, funext fun k => ?_⟩
  by_cases hk : k ∈ activeRows env.eps (g.pbm p) (g.vy y)
  · obtain ⟨i, rfl⟩ := List.mem_iff_get.1 hk
    rw [writeDual_get _ (activeRows_nodup heps _ _), Relabel.vy, ← he, writeDual_get _ (activeRows_nodup heps _ _)]
    rfl
  · rw [writeDual_notMem _ _ _ hk, Relabel.vy, Relabel.vy, writeDual_notMem _ _ _ fun h => hk (relabel_active.2 h)]

/-! ### The whole solver -/

theorem relabel_finish (p : Pbm F n m) (s : Scaling F n m) (iter : ℕ) (ret : Option Status) (x : Fin n → F) (y : Fin m → F) :
    finish (g.pbm p) (g.scaling s) iter ret (g.vx x) (g.vy y) = g.sol (finish p s iter ret x y) := by
  have eq : (g.pbm p).q = g.vx p.q := rfl
  unfold finish Relabel.sol
  simp only [unX_vx, unY_vy, relabel_P, eq, Sol.mk.injEq, true_and]
  rw [← dot_vx (g := g) (s.unX x), vx_add]
  congr 2
  funext j
  simp only [Relabel.vx]; ring

theorem relabel_conclude {env : Env F n} {prm : Params F} {p : Pbm F n m} {s : Scaling F n m} (hl : LdltOk env)
    (hf : FactorsAll env) (hd : 0 < prm.delta) (heps : 0 ≤ env.eps) (hP : Lin.PSD p.P) (hs : s.Pos) (iter : ℕ)
    (ret : Option Status) (t : It F n m) :
    conclude env prm (g.pbm p) (g.scaling s) iter ret (g.it t) = (conclude env prm p s iter ret t).map g.sol := by
  unfold conclude
  split
  · obtain ⟨x', y', h1, h2⟩ := relabel_polish (g := g) hl hf hd heps hP hs t.y
    have h2' : polish env prm (g.pbm p) (g.scaling s) (g.it t).y = .ok (some (g.vx x', g.vy y')) := h2
    rw [h1, h2']
    simp only [relabel_finish]
    rfl
  · have : finish (g.pbm p) (g.scaling s) iter ret (g.it t).x (g.it t).y = g.sol (finish p s iter ret t.x t.y) :=
      relabel_finish p s iter ret t.x t.y
    rw [this]
    rfl

theorem kkt_det {prm : Params F} {p : Pbm F n m} {s : Scaling F n m} (hP : Lin.PSD p.P) (hs : s.Pos) (hsig : 0 < prm.sigma)
    (hr : 0 < prm.rho) : (symUpper (kkt prm.sigma p s (rhoVec prm p s))).det ≠ 0 := by
  intro h0
  obtain ⟨v, hv, hMv⟩ := Matrix.exists_mulVec_eq_zero_iff.2 h0
  refine hv (kkt_injective (rho := rhoVec prm p s) hP hs hsig (fun i => rhoOf_pos hr _ _) ?_)
  rw [hMv, mulVec_zero]

theorem relabel_start (p : Pbm F n m) (s : Scaling F n m) (ws : Option ((Fin n → F) × (Fin m → F))) :
    start (g.pbm p) (g.scaling s) (ws.map fun w => (g.vx w.1, g.vy w.2)) = g.it (start p s ws) := by
  cases ws with
  | none =>
    simp only [Option.map_none, start, Relabel.it, It.mk.injEq]
    refine ⟨funext fun j => ?_, funext fun j => ?_, funext fun j => ?_⟩ <;> simp [Relabel.vx, Relabel.vy]
  | some w =>
    simp only [Option.map_some, start, Relabel.it, It.mk.injEq, relabel_A]
    refine ⟨funext fun j => ?_, funext fun j => ?_, funext fun j => ?_⟩ <;>
      simp only [Relabel.vx, Relabel.vy, Relabel.scaling] <;> ring

variable {env : Env F n} {prm : Params F} {p : Pbm F n m} {ws : Option ((Fin n → F) × (Fin m → F))} {fuel : ℕ}

theorem relabel_solveScaled (hl : LdltOk env) (hf : FactorsAll env) (hsig : 0 < prm.sigma) (hr : 0 < prm.rho)
    (hd : 0 < prm.delta) (heps : 0 ≤ env.eps) (hP : Lin.PSD p.P) (hg : KeepsFree g p) {s : Scaling F n m} (hs : s.Pos) :
    solveScaled env prm (g.pbm p) (g.scaling s) (ws.map fun w => (g.vx w.1, g.vy w.2)) fuel =
      (solveScaled env prm p s ws fuel).map g.sol := by
  obtain ⟨slv, hslv⟩ := Option.ne_none_iff_exists'.1 (hf _ _ (kkt_det (prm := prm) hP hs hsig hr))
  obtain ⟨slv', hslv'⟩ := Option.ne_none_iff_exists'.1
    (hf _ _ (kkt_det (prm := prm) (relabel_psd (g := g) hP) (relabel_scaling_pos (g := g) hs) hsig hr))
  have e1 : prepare env prm p s = (slv, precheck p) := by unfold prepare; rw [hslv]
  have e2 : prepare env prm (g.pbm p) (g.scaling s) = (slv', precheck p) := by
    unfold prepare; rw [hslv', relabel_precheck]
  have hl' : loop env prm (g.pbm p) (g.scaling s)
      (step prm.alpha prm.sigma (g.pbm p) (g.scaling s) (rhoVec prm (g.pbm p) (g.scaling s)) slv') fuel 0 (precheck p)
        (g.it (start p s ws)) =
      (loop env prm p s (step prm.alpha prm.sigma p s (rhoVec prm p s) slv) fuel 0 (precheck p) (start p s ws)).map
        fun r => (r.1, r.2.1, g.it r.2.2) := by
    cases hc : precheck p with
    | some c =>
      cases fuel with
      | zero => rfl
      | succ k => simp [loop, Out.map]
    | none =>
      have hpre : ∀ k, emptyRow (p.l k) (p.u k) = false := by
        intro k
        unfold precheck at hc
        split at hc
        · cases hc
        · rename_i h
          simp only [List.any_eq_true, not_exists, not_and, Bool.not_eq_true] at h
          exact h k (List.mem_finRange k)
      exact relabel_loop (fun iter old new => relabel_check hg hpre env prm s iter old new)
        (fun t => relabel_step hs hpre (relabel_slv hP hs hsig hr (hl _ _ _ hslv) (hl _ _ _ hslv')) t) fuel 0 none (start p s ws)
  unfold solveScaled
  rw [e1, e2, relabel_start]
  simp only
  rw [hl']
  cases loop env prm p s (step prm.alpha prm.sigma p s (rhoVec prm p s) slv) fuel 0 (precheck p) (start p s ws) with
  | ok r => exact relabel_conclude hl hf hd heps hP hs r.1 r.2.1 r.2.2
  | undef => rfl
  | timeout => rfl

/-- **C113.** The answer of `solve_qp` does not depend on how a convex program is written down: renumbering the variables
and the rows, turning round the sign of variables and of rows that have a bound, gives the same status, number of
iterations and objective, and the same point and multipliers in the new numbering and signs. This holds for all parameters
with positive `sigma`, `rho` and `delta`, with or without scaling, polishing and warm start. -/
theorem qp_relabel_partial (hsq : SqrtPos env) (hl : LdltOk env) (hf : FactorsAll env) (hsig : 0 < prm.sigma) (hr : 0 < prm.rho)
    (hd : 0 < prm.delta) (heps : 0 ≤ env.eps) (hP : Lin.PSD p.P)
    (hg : ∀ k, g.fy k = true → ¬ (p.l (g.py k) = .neg ∧ p.u (g.py k) = .pos)) :
    solveQP env prm (g.pbm p) (ws.map fun w => (g.vx w.1, g.vy w.2)) fuel = (solveQP env prm p ws fuel).map g.sol := by
  unfold solveQP solve
  cases hb : prm.scaling with
  | true =>
    simp only [if_true]
    rw [relabel_scale]
    cases hsc : scale env.sqrt p with
    | none => rfl
    | some s =>
      have h := relabel_solveScaled (ws := ws) (fuel := fuel) hl hf hsig hr hd heps hP hg (scale_pos hsq hsc)
      simp only [Option.map_some]
      rw [h]
      cases solveScaled env prm p s ws fuel <;> rfl
  | false =>
    have e : (Scaling.unit : Scaling F n m) = g.scaling Scaling.unit := rfl
    have hu : (Scaling.unit : Scaling F n m).Pos := ⟨one_pos, fun _ => one_pos, fun _ => one_pos⟩
    have h := relabel_solveScaled (ws := ws) (fuel := fuel) hl hf hsig hr hd heps hP hg hu
    simp only [Bool.false_eq_true, if_false]
    rw [e, h, ← e]
    cases solveScaled env prm p Scaling.unit ws fuel <;> rfl

/-! ### Rows without bounds -/

/-- The row of `freePbm` turned round: minimise `x`, with one row `-inf <= -x <= inf`. -/
def turnRow : Relabel 1 1 := ⟨1, fun _ => false, 1, fun _ => true⟩

/-- **C113 is false of the code for rows without bounds.** Minimise `x` with the row `-inf <= x <= inf`: `solve_qp` never
returns. The same program with the row written as `-inf <= -x <= inf`: it returns. -/
theorem qp_free_row_orientation {env : Env ℝ 1} (hsq : SqrtPos env) (hl : LdltOk env) (hf : FactorsAll env) :
    (∀ fuel, solveQP env Params.default freePbm none fuel = .timeout) ∧
    ∃ N, ∀ fuel, N ≤ fuel → ∃ sol, solveQP env Params.default (turnRow.pbm freePbm) none fuel = .ok sol := by
  have hsig : (0 : ℝ) < Params.default.sigma := by norm_num [Params.default]
  have hr : (0 : ℝ) < Params.default.rho := by norm_num [Params.default]
  have hP' := relabel_psd (g := turnRow) free_psd
  refine ⟨qp_free_row_diverges hsq hl fun s hs => hf _ _ (kkt_det free_psd hs hsig hr),
    qp_always_returns_partial hsq hl hP' (by norm_num [Params.default]) (by norm_num [Params.default]) hsig hr
      (by norm_num [Params.default]) (by norm_num [Params.default]) (by norm_num [Params.default]) (by norm_num [Params.default])
      (by norm_num [Params.default]) (fun _ => ⟨one_ne_zero, one_ne_zero⟩) (fun s hs => hf _ _ (kkt_det hP' hs hsig hr)) ?_⟩
  intro d hd i _ _
  have h1 := hd.2.1
  have hi : i = 0 := Subsingleton.elim _ _
  subst hi
  simp [Relabel.pbm, Relabel.vx, turnRow, freePbm, sg, dotProduct, mulVec] at h1 ⊢
  exact h1.le

/-! ### Examples -/

/-- Two variables and two rows, the first row with one bound: `x^2 / 2 + y`, `1 <= x + y`, `-1 <= x - y <= 2`. -/
def twoPbm : Pbm ℚ 2 2 :=
  ⟨!![1, 0; 0, 0], ![0, 1], !![1, 1; 1, -1], ![.fin 1, .fin (-1)], ![.pos, .fin 2]⟩

/-- Exchange the variables and the rows, and turn round the first variable and the first row of the new numbering. -/
def swapAll : Relabel 2 2 := ⟨Equiv.swap 0 1, ![true, false], Equiv.swap 0 1, ![true, false]⟩

/-- What the relabelled program is: `x^2 / 2 - y`, `-2 <= -y - x <= 1`, `1 <= -y + x` in the order `(y, x)`. -/
example : (swapAll.pbm twoPbm).P = !![0, 0; 0, 1] ∧ (swapAll.pbm twoPbm).q = ![-1, 0] ∧
    (swapAll.pbm twoPbm).A = !![-1, -1; -1, 1] ∧ (swapAll.pbm twoPbm).l = ![.fin (-2), .fin 1] ∧
    (swapAll.pbm twoPbm).u = ![.fin 1, .pos] := by
  refine ⟨?_, ?_, ?_, ?_, ?_⟩ <;> decide +kernel

theorem two_psd : Lin.PSD twoPbm.P := by
  refine ⟨by decide +kernel, fun v => ?_⟩
  simp [twoPbm, dotProduct, mulVec, Fin.sum_univ_two]
  nlinarith [sq_nonneg (v 0)]

/-- An exact linear solver with a square root, for rational numbers. -/
noncomputable def exactEnv (n : ℕ) : Env ℚ n := ⟨ratSqrt, 1 / 4503599627370496, exactFactor, 0, fun _ => 0⟩

/-- The hypotheses of `qp_relabel_partial` hold for this program with the default parameters, cold and warm started. -/
example (ws : Option ((Fin 2 → ℚ) × (Fin 2 → ℚ))) (fuel : ℕ) :
    solveQP (exactEnv 2) Params.default (swapAll.pbm twoPbm) (ws.map fun w => (swapAll.vx w.1, swapAll.vy w.2)) fuel =
      (solveQP (exactEnv 2) Params.default twoPbm ws fuel).map swapAll.sol := by
  refine qp_relabel_partial (fun _ h => ratSqrt_pos h) (fun _ _ _ h b => exactFactor_ok h b) (fun k H h => ?_)
    (by norm_num [Params.default]) (by norm_num [Params.default]) (by norm_num [Params.default]) (by norm_num [exactEnv]) two_psd ?_
  · change exactFactor k H ≠ none
    unfold exactFactor
    rw [if_neg h]; simp
  · decide +kernel

/-- A run that ends with a verdict, and its mirror image: minimise `0` with `1 <= x`, and with `-x <= -1`. -/
example : (∃ sol, solveQP env1 Params.default halfLinePbm none 10 = .ok sol ∧ sol.code = .dualInfeasible ∧ sol.iter = 2) ∧
    (turnRow.pbm halfLinePbm).u = ![.fin (-1)] ∧ (turnRow.pbm halfLinePbm).l = ![.neg] ∧
    ∃ sol, solveQP env1 Params.default (turnRow.pbm halfLinePbm) none 10 = .ok sol ∧ sol.code = .dualInfeasible ∧ sol.iter = 2 := by
  refine ⟨halfLine_run, by decide +kernel, by decide +kernel, ?_⟩
  obtain ⟨sol, h, h'⟩ := Out.test_iff (o := solveQP env1 Params.default (turnRow.pbm halfLinePbm) none 10)
    (f := fun sol => decide (sol.code = .dualInfeasible ∧ sol.iter = 2)) (by decide +kernel)
  exact ⟨sol, h, of_decide_eq_true h'⟩

/-- The hypotheses of `qp_free_row_orientation` can be met. -/
example :
    let env : Env ℝ 1 := ⟨Real.sqrt, 0, fun _ H => open Classical in if (symUpper H).det = 0 then none else some fun b => (symUpper H)⁻¹ *ᵥ b, 0, fun _ => 0⟩
    SqrtPos env ∧ LdltOk env ∧ FactorsAll env := by
  intro env
  refine ⟨fun _ h => Real.sqrt_pos.2 h, fun k H slv h b => ?_, fun k H h => ?_⟩
  · simp only [env] at h
    split at h
    · cases h
    · rename_i hd
      cases h
      rw [mulVec_mulVec, Matrix.mul_nonsing_inv _ (isUnit_iff_ne_zero.2 hd), one_mulVec]
  · simp only [env]
    rw [if_neg h]; simp

end Verif.QP
