import Verif.Spec.Frame

/-! # Proofs: change of frame -/

universe v

namespace Verif.PID

variable {T G T' G' F : Type*} {n : ℕ} [LinearOrder T] [LinearOrder T'] [Field F] [LinearOrder F]

/-- The states agree; the references when `r`. -/
structure Rel (e : G → G') (τ : T → T') (r : Prop) (s : State T G F n) (s' : State T' G' F n) : Prop where
  windup : s'.windup = s.windup
  kp : s'.kp = s.kp
  kd : s'.kd = s.kd
  ki : s'.ki = s.ki
  tLast : s'.tLast = s.tLast.map τ
  iErr : s'.iErr = s.iErr
  xdes : r → ∀ t, s'.xdes (τ t) = (e (s.xdes t).1, (s.xdes t).2)

variable {env : Env T G F n} {env' : Env T' G' F n} {e : G → G'} {τ : T → T'}

theorem call_rel (hf : IsFrame env env' e τ) {s : State T G F n} {s' : State T' G' F n} (h : Rel e τ True s s') (t x v) :
    Rel e τ True (call env s t x v).1 (call env' s' (τ t) (e x) v).1 ∧ (call env' s' (τ t) (e x) v).2 = (call env s t x v).2 := by
  have hg : env'.rminus (s'.xdes (τ t)).1 (e x) = env.rminus (s.xdes t).1 x := by rw [h.xdes trivial, hf.rminus]
  have hi : integrate env' s' (τ t) (env.rminus (s.xdes t).1 x) = integrate env s t (env.rminus (s.xdes t).1 x) := by
    unfold integrate
    rw [h.tLast, h.windup, h.iErr]
    cases s.tLast with
    | none => rfl
    | some tl => simp only [Option.map_some, hf.lt, hf.tminus]
  refine ⟨⟨h.windup, h.kp, h.kd, h.ki, rfl, ?_, fun _ => h.xdes trivial⟩, ?_⟩
  · simp only [call, hg, hi]
  · simp only [call, hg, hi, h.kp, h.kd, h.ki]
    rw [h.xdes trivial]

/-- A step keeps the relation, and a reference establishes its last clause. -/
theorem step_rel (hf : IsFrame env env' e τ) {r : Prop} {s : State T G F n} {s' : State T' G' F n} (h : Rel e τ r s s')
    {o : Op T G F n} {o' : Op T' G' F n} (ho : Moved e τ o o') (hc : o.calls = true → r) :
    Rel e τ (r ∨ o.refers = true) (step env s o).1 (step env' s' o').1 ∧ (step env' s' o').2 = (step env s o).2 := by
  cases ho with
  | call t x v =>
    have hr : r := hc rfl
    obtain ⟨h1, h2⟩ := call_rel hf ⟨h.windup, h.kp, h.kd, h.ki, h.tLast, h.iErr, fun _ => h.xdes hr⟩ t x v
    exact ⟨⟨h1.windup, h1.kp, h1.kd, h1.ki, h1.tLast, h1.iErr, fun _ => h1.xdes trivial⟩, congrArg some h2⟩
  | setKp k => exact ⟨⟨h.windup, rfl, h.kd, h.ki, h.tLast, h.iErr, fun hr => h.xdes (by simpa [Op.refers] using hr)⟩, rfl⟩
  | setKpAll k => exact ⟨⟨h.windup, rfl, h.kd, h.ki, h.tLast, h.iErr, fun hr => h.xdes (by simpa [Op.refers] using hr)⟩, rfl⟩
  | setKd k => exact ⟨⟨h.windup, h.kp, rfl, h.ki, h.tLast, h.iErr, fun hr => h.xdes (by simpa [Op.refers] using hr)⟩, rfl⟩
  | setKdAll k => exact ⟨⟨h.windup, h.kp, rfl, h.ki, h.tLast, h.iErr, fun hr => h.xdes (by simpa [Op.refers] using hr)⟩, rfl⟩
  | setKi k => exact ⟨⟨h.windup, h.kp, h.kd, rfl, h.tLast, h.iErr, fun hr => h.xdes (by simpa [Op.refers] using hr)⟩, rfl⟩
  | setKiAll k => exact ⟨⟨h.windup, h.kp, h.kd, rfl, h.tLast, h.iErr, fun hr => h.xdes (by simpa [Op.refers] using hr)⟩, rfl⟩
  | resetIntegral => exact ⟨⟨h.windup, h.kp, h.kd, h.ki, h.tLast, rfl, fun hr => h.xdes (by simpa [Op.refers] using hr)⟩, rfl⟩
  | setXdes f f' hff => exact ⟨⟨h.windup, h.kp, h.kd, h.ki, h.tLast, h.iErr, fun _ => hff⟩, rfl⟩
  | setXdesSpline t0 c c' hcc => exact ⟨⟨h.windup, h.kp, h.kd, h.ki, h.tLast, h.iErr, fun _ t => by
      simp only [step, hcc, hf.tminus]⟩, rfl⟩

theorem outputs_rel (hf : IsFrame env env' e τ) : ∀ {ops : List (Op T G F n)} {ops' : List (Op T' G' F n)} {r : Prop}
    {s : State T G F n} {s' : State T' G' F n}, Rel e τ r s s' → List.Forall₂ (Moved e τ) ops ops' → (r ∨ Referred ops) →
    outputs env' s' ops' = outputs env s ops ∧ (run env' s' ops').iErr = (run env s ops).iErr
  | [], _, _, _, _, h, ho, _ => by
    cases ho
    exact ⟨rfl, h.iErr⟩
  | o :: ops, _, r, s, s', h, ho, hR => by
    cases ho with
    | cons h1 h2 =>
      obtain ⟨g1, g2⟩ := step_rel hf h h1 fun hc => hR.elim id fun hR => by
        obtain ⟨_, hm, _⟩ := hR [] o ops rfl hc
        cases hm
      obtain ⟨k1, k2⟩ := outputs_rel hf g1 h2 (hR.elim (fun hr => .inl (.inl hr)) fun hR => by
        by_cases hb : o.refers = true
        · exact .inl (.inr hb)
        · refine .inr fun pre o' post heq hc => ?_
          obtain ⟨a, ha, hb'⟩ := hR (o :: pre) o' post (by rw [heq]; rfl) hc
          rcases List.mem_cons.1 ha with rfl | ha
          · exact absurd hb' hb
          · exact ⟨a, ha, hb'⟩)
      exact ⟨by simp only [outputs, g2, k1], k2⟩

end Verif.PID

namespace Verif.EKF

variable {G G' : Type*} {F : Type v} {n : ℕ} [Field F] [LinearOrder F] {env : Env G F n} {env' : Env G' F n} {e : G → G'}

theorem slopes_moved {V : Type*} [AddCommMonoid V] [Module F V] {rhs : F → G → V} {rhs' : F → G' → V} {add : G → V → G} {add' : G' → V → G'}
    (hr : ∀ t x, rhs' t (e x) = rhs t x) (ha : ∀ x v, add' (e x) v = e (add x v)) (x : G) (t dt : F) :
    ∀ (l : List (F × List F)) (ks : List V), slopes rhs' add' (e x) t dt l ks = slopes rhs add x t dt l ks
  | [], _ => rfl
  | (c, a) :: l, ks => by rw [slopes, slopes, ha, hr, slopes_moved hr ha x t dt l]

theorem odeStep_moved (hf : IsFrame env env' e) {d : Dyn G F n} {d' : Dyn G' F n} (hd : d.Moved e d') (Q : Mat n n F) (s : State G F n) (t dt : F) :
    odeStep env' d' Q (s.moved e) t dt = (odeStep env d Q s t dt).moved e := by
  have hc : covRhs env' d' Q (e s.g) = covRhs env d Q s.g := by
    funext t c
    simp only [covRhs, hf.ad, hd.f, hd.df]
  have hg : doStep env'.tab d'.f env'.rplus (e s.g) t dt = e (doStep env.tab d.f env.rplus s.g t dt) := by
    unfold doStep
    rw [slopes_moved hd.f hf.rplus, hd.f, hf.rplus, hf.tab]
  simp only [odeStep, State.moved, hc, hg]
  rw [hf.tab]

theorem predictLoop_moved (hf : IsFrame env env' e) {d : Dyn G F n} {d' : Dyn G' F n} (hd : d.Moved e d') (Q : Mat n n F) (tau dtv : F) :
    ∀ (fuel : ℕ) (t : F) (s : State G F n), predictLoop env' d' Q tau dtv fuel t (s.moved e) =
      (predictLoop env d Q tau dtv fuel t s).map fun r => (r.1, r.2.moved e)
  | 0, _, _ => rfl
  | fuel + 1, t, s => by
    unfold predictLoop
    split_ifs
    · rw [odeStep_moved hf hd, predictLoop_moved hf hd]
    · rfl

theorem step_moved (hf : IsFrame env env' e) (fuel : ℕ) (s : State G F n) {o : Op G F n} {o' : Op G' F n} (ho : Moved e o o') :
    step env' fuel (s.moved e) o' = (step env fuel s o).map (State.moved e) := by
  cases ho with
  | reset g P => rfl
  | predict d d' Q tau dt h =>
    simp only [step, predict, predictLoop_moved hf h]
    cases predictLoop env d Q tau (dt.getD (2 * tau)) fuel 0 s with
    | none => rfl
    | some r => simp only [Option.map_some, odeStep_moved hf h]
  | update eY h h' jac jac' ym ym' y R hh hj hy =>
    simp only [step, update, State.moved, hh, hj, hy, hf.rplus, hf.solve, Option.map_some]

theorem run_moved (hf : IsFrame env env' e) (fuel : ℕ) : ∀ {ops : List (Op G F n)} {ops' : List (Op G' F n)} (s : State G F n),
    List.Forall₂ (Moved e) ops ops' → run env' fuel (s.moved e) ops' = (run env fuel s ops).map (State.moved e)
  | [], _, s, h => by
    cases h
    rfl
  | o :: ops, _, s, h => by
    cases h with
    | cons h1 h2 =>
      rw [run, run, step_moved hf fuel s h1]
      cases step env fuel s o with
      | none => rfl
      | some s1 => exact run_moved hf fuel s1 h2

end Verif.EKF

namespace Verif.ASIF

variable {X X' U U' F : Type*} {nx nu : ℕ} [Field F] [LinearOrder F] {env : Env X U F nx nu} {env' : Env X' U' F nx nu} {e : X → X'} {eu : U → U'}

/-- The loop variables in the other frame. -/
def St.moved (e : X → X') (s : St X F nx) : St X' F nx := ⟨s.t, e s.x, s.S⟩

/-- The filter in the other frame. -/
structure Rel (e : X → X') (eu : U → U') (s : Filter X U F nx nu) (s' : Filter X' U' F nx nu) : Prop where
  d : s.d.Moved e eu s'.d
  qp : s'.qp = s.qp
  prm : s'.prm = s.prm.moved eu
  warm : s'.warm = s.warm

section

variable {d : Dyn X U F nx nu} {d' : Dyn X' U' F nx nu} {b : Backup X U F nx} {b' : Backup X' U' F nx}

theorem fcl_moved (hd : d.Moved e eu d') (hb : ∀ t x, b'.bu t (e x) = eu (b.bu t x)) (t : F) (x : X) : fcl d' b' t (e x) = fcl d b t x := by
  unfold fcl
  rw [hb, hd.f]

theorem odeStep_moved (hf : IsFrame env env' e eu) (hd : d.Moved e eu d') (hb : ∀ t x, b'.bu t (e x) = eu (b.bu t x))
    (hcl : ∀ t x, b'.dcl t (e x) = b.dcl t x) (dt : F) (s : St X F nx) : odeStep env' d' b' dt (s.moved e) = (odeStep env d b dt s).moved e := by
  simp only [odeStep, St.moved, fcl_moved hd hb, hf.xplus, hcl, hf.ad]

theorem advance_moved (hf : IsFrame env env' e eu) (hd : d.Moved e eu d') (hb : ∀ t x, b'.bu t (e x) = eu (b.bu t x))
    (hcl : ∀ t x, b'.dcl t (e x) = b.dcl t x) (target dt : F) : ∀ (fuel : ℕ) (s : St X F nx),
    advance env' d' b' target dt fuel (s.moved e) = (advance env d b target dt fuel s).map (St.moved e)
  | 0, _ => rfl
  | fuel + 1, s => by
    have ht : (s.moved e).t = s.t := rfl
    unfold advance
    rw [ht]
    split_ifs
    · rw [odeStep_moved hf hd hb hcl, advance_moved hf hd hb hcl]
    · rfl

variable {nh : ℕ} {h dt : F → X → Fin nh → F} {h' dt' : F → X' → Fin nh → F} {dx : F → X → Matrix (Fin nh) (Fin nx) F}
  {dx' : F → X' → Matrix (Fin nh) (Fin nx) F}

theorem barrierLoop_moved (hf : IsFrame env env' e eu) (hd : d.Moved e eu d') (hb : ∀ t x, b'.bu t (e x) = eu (b.bu t x))
    (hcl : ∀ t x, b'.dcl t (e x) = b.dcl t x) (hh : ∀ t x, h' t (e x) = h t x) (hdt : ∀ t x, dt' t (e x) = dt t x)
    (hdx : ∀ t x, dx' t (e x) = dx t x) (alpha tau δ : F) (f0 : Fin nx → F) (df0 : Matrix (Fin nx) (Fin nu) F) (fuel : ℕ) :
    ∀ (m k : ℕ) (s : St X F nx) (qp : DQP F), barrierLoop env' d' b' ⟨nh, h', dt', dx'⟩ alpha tau δ f0 df0 fuel m k (s.moved e) qp =
      barrierLoop env d b ⟨nh, h, dt, dx⟩ alpha tau δ f0 df0 fuel m k s qp
  | 0, _, _, _ => rfl
  | m + 1, k, s, qp => by
    have hr : barrierRows nu alpha ⟨nh, h', dt', dx'⟩ f0 df0 k (s.moved e) qp = barrierRows nu alpha ⟨nh, h, dt, dx⟩ f0 df0 k s qp := by
      simp only [barrierRows, St.moved, hh, hdt, hdx]
    have ht : (s.moved e).t = s.t := rfl
    unfold barrierLoop
    rw [hr]
    congr 1
    funext qp1
    simp only [ht, advance_moved hf hd hb hcl]
    cases advance env d b (tau * ((k + 1 : ℕ) : F)) (min δ (tau * ((k + 1 : ℕ) : F) - s.t)) fuel s with
    | none => rfl
    | some s1 => exact barrierLoop_moved hf hd hb hcl hh hdt hdx alpha tau δ f0 df0 fuel m (k + 1) s1 qp1

end

theorem call_moved (hf : IsFrame env env' e eu) (solver : Solver F) (fuel : ℕ) {s : Filter X U F nx nu} {s' : Filter X' U' F nx nu} (h : Rel e eu s s')
    {c : Call X U F nx} {c' : Call X' U' F nx} (hc : Call.Moved e eu c c') :
    (s.call env solver fuel c = none ∧ s'.call env' solver fuel c' = none) ∨
    ∃ r r', s.call env solver fuel c = some r ∧ s'.call env' solver fuel c' = some r' ∧ Rel e eu r.1 r'.1 ∧ r'.2 = (eu r.2.1, r.2.2) := by
  cases hc with
  | mk g udes nh hh hdt h' dt' dx dx' b b' e1 e2 e3 e4 e5 =>
    obtain ⟨sd, sq, sp, sw⟩ := s
    obtain ⟨sd', sq', sp', sw'⟩ := s'
    obtain ⟨hd, h1, h2, h3⟩ := h
    dsimp only at hd h1 h2 h3
    subst h1 h2 h3
    have hu : update env' sd' b' ⟨nh, h', dt', dx'⟩ ((sp.moved eu).pbm ⟨e g, eu udes, ⟨nh, h', dt', dx'⟩, b'⟩) sp.asif fuel sq' =
        update env sd b ⟨nh, hh, hdt, dx⟩ (sp.pbm ⟨g, udes, ⟨nh, hh, hdt, dx⟩, b⟩) sp.asif fuel sq' := by
      have hl := barrierLoop_moved hf hd e4 e5 e1 e2 e3 sp.asif.alpha (sp.T / (sp.asif.K : F)) (min sp.asif.dt (sp.T / (sp.asif.K : F)))
        (sd.f g udes) (sd.du g udes) fuel sp.asif.K 0 ⟨0, g, 1⟩ sq'
      unfold update
      simp only [FPrm.pbm, FPrm.moved, hd.f, hd.du]
      simp only [St.moved] at hl
      rw [hl]
      have ht : ∀ q, tailRows env' ⟨sp.T, e g, eu udes, sp.W, ⟨sp.ulim.rows, sp.ulim.A, eu sp.ulim.c, sp.ulim.l, sp.ulim.u⟩⟩ sp.asif nh q =
          tailRows env ⟨sp.T, g, udes, sp.W, sp.ulim⟩ sp.asif nh q := fun q => by simp only [tailRows, hf.uminus]
      simp only [ht]
      rfl
    simp only [Filter.call]
    have hp : (sp.moved eu).nh = sp.nh := rfl
    have ha : (sp.moved eu).asif = sp.asif := rfl
    rw [hp, ha, hu]
    by_cases hn : sp.nh = nh
    · rw [if_pos hn, if_pos hn]
      cases update env sd b ⟨nh, hh, hdt, dx⟩ (sp.pbm ⟨g, udes, ⟨nh, hh, hdt, dx⟩, b⟩) sp.asif fuel sq' with
      | none => exact .inl ⟨rfl, rfl⟩
      | some q =>
        simp only [Option.bind_some]
        cases solver q sw' with
        | none => exact .inl ⟨rfl, rfl⟩
        | some sol =>
          simp only [Option.bind_some]
          split_ifs with hz
          · exact .inr ⟨_, _, rfl, rfl, ⟨hd, rfl, rfl, rfl⟩, by simp only [hf.uplus]⟩
          · exact .inr ⟨_, _, rfl, rfl, ⟨hd, rfl, rfl, rfl⟩, by simp only [hf.uplus]⟩
          · exact .inl ⟨rfl, rfl⟩
    · rw [if_neg hn, if_neg hn]
      exact .inl ⟨rfl, rfl⟩

theorem answers_moved (hf : IsFrame env env' e eu) (solver : Solver F) (fuel : ℕ) : ∀ {l : List (Call X U F nx)} {l' : List (Call X' U' F nx)}
    {s : Filter X U F nx nu} {s' : Filter X' U' F nx nu}, Rel e eu s s' → List.Forall₂ (Call.Moved e eu) l l' →
    answers env' solver fuel l' s' = (answers env solver fuel l s).map fun r => (eu r.1, r.2)
  | [], _, _, _, _, hl => by
    cases hl
    rfl
  | c :: l, _, s, s', h, hl => by
    cases hl with
    | cons h1 h2 =>
      obtain ⟨g1, g2⟩ | ⟨r, r', g1, g2, g3, g4⟩ := call_moved hf solver fuel h h1
      · simp only [answers, g1, g2, List.map_nil]
      · simp only [answers, g1, g2, g4, List.map_cons, answers_moved hf solver fuel g3 h2]

end Verif.ASIF
