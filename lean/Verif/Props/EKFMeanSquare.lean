import Verif.Props.EKFRepeat
import Verif.Props.EKFStat

/-! # C145: mean squared error after repeated readings -/

set_option linter.unusedSectionVars false

namespace Verif.EKF

open Matrix EKFSpec Lin

universe v

variable {Ω : Type*} {F : Type v} [Fintype Ω] [Field F] [LinearOrder F] [IsStrictOrderedRing F] {n m : ℕ} {p : Ω → F}
  {env : Env (Vec n F) F n} {fuel : ℕ}

/-- Readings of one sensor with the noises `vs`. -/
def sensorEvents (H : Mat m n F) (c : Vec m F) (R : Mat m m F) (vs : List (Ω → Vec m F)) : List (Ev Ω F n) :=
  vs.map fun v => .obs ⟨m, H, c, R, v⟩

theorem moment_quad (e : Ω → Vec n F) (a : Vec n F) : a ⬝ᵥ moment p e e *ᵥ a = ∑ o, p o * (a ⬝ᵥ e o) ^ 2 := by
  simp only [dotProduct, Matrix.mulVec, moment, Finset.sum_mul, Finset.mul_sum, sq]
  calc ∑ i, ∑ j, ∑ o, a i * (p o * (e o i * e o j) * a j)
      = ∑ i, ∑ o, ∑ j, a i * (p o * (e o i * e o j) * a j) := Finset.sum_congr rfl fun i _ => Finset.sum_comm
    _ = ∑ o, ∑ i, ∑ j, a i * (p o * (e o i * e o j) * a j) := Finset.sum_comm
    _ = _ := by
      refine Finset.sum_congr rfl fun o _ => ?_
      rw [Finset.sum_comm]
      refine Finset.sum_congr rfl fun i _ => Finset.sum_congr rfl fun j _ => ?_
      ring

theorem run_sensor (H : Mat m n F) (c : Vec m F) (R : Mat m m F) (vs : List (Ω → Vec m F)) (x : Vec n F) (o : Ω) :
    ∀ s : State (Vec n F) F n, run env fuel s (opsOf o x (sensorEvents H c R vs))
      = some (fuse env (readings H c R (vs.map fun v => H *ᵥ x + c + v o)) s) := by
  induction vs with
  | nil => intro s; rfl
  | cons v vs ih =>
    intro s
    have := ih (update env (toMeas ⟨m, H, c, R, H *ᵥ x + c + v o⟩) R s)
    simpa only [sensorEvents, List.map_cons, opsOf, Ev.op, truth, List.foldl_cons, List.foldl_nil, run, step, Option.bind_some,
      readings, fuse] using this

/-- **C145** If the first covariance covers the first error, the noise covariance handed to the filter covers the noises, and the
noises are uncorrelated with each other and with the first error, then after `k` readings the mean squared error of every
combination of predicted readings is at most a `k`-th of the variance of that combination of the sensor. -/
theorem ekf_repeat_mean_square (he : Plain env) (hf : 0 < fuel) (hp : ∀ o, 0 ≤ p o) (H : Mat m n F) (c : Vec m F) {R : Mat m m F}
    (hR : PD R) (vs : List (Ω → Vec m F)) (P : Mat n n F) (x g : Ω → Vec n F)
    (h : PSD (P - moment p (fun o => x o - g o) fun o => x o - g o))
    (hw : White p [⟨n, fun o => x o - g o⟩] (sensorEvents H c R vs)) (hv : ∀ v ∈ vs, PSD (R - moment p v v)) :
    ∃ (g' : Ω → Vec n F) (P' : Mat n n F), (∀ o, run env fuel ⟨g o, P⟩ (opsOf o (x o) (sensorEvents H c R vs)) = some ⟨g' o, P'⟩) ∧
      ∀ u : Vec m F, (vs.length : F) * ∑ o, p o * (u ⬝ᵥ H *ᵥ (x o - g' o)) ^ 2 ≤ u ⬝ᵥ R *ᵥ u := by
  have hc : Covered p P (sensorEvents H c R vs) := by
    intro l₁ e l₂ heq
    have hm : e ∈ sensorEvents H c R vs := by rw [heq]; simp
    obtain ⟨v, hvm, rfl⟩ := List.mem_map.mp hm
    exact ⟨hR, hv v hvm⟩
  obtain ⟨g', h1, h2⟩ := ekf_covers_partial he hf hp _ P x g h hw hc
  refine ⟨g', cov P (sensorEvents H c R vs), h1, fun u => ?_⟩
  have ht : ∀ o, truth (sensorEvents H c R vs) (x o) o = x o := by
    intro o
    have : ∀ (l : List (Ω → Vec m F)) y, truth (sensorEvents H c R l) y o = (y : Vec n F) := by
      intro l
      induction l with
      | nil => exact fun y => rfl
      | cons z l ih => exact fun y => ih y
    exact this vs (x o)
  simp only [ht] at h2
  rcases isEmpty_or_nonempty Ω with hE | ⟨⟨o⟩⟩
  · simp [hR.psd.2 u]
  have hP : PSD P := by
    have := h.add (moment_psd hp fun o => x o - g o)
    rwa [sub_add_cancel] at this
  have hP' : (fuse env (readings H c R (vs.map fun v => H *ᵥ x o + c + v o)) ⟨g o, P⟩).P = cov P (sensorEvents H c R vs) := by
    have := (run_sensor (env := env) (fuel := fuel) H c R vs (x o) o ⟨g o, P⟩).symm.trans (h1 o)
    rw [Option.some.inj this]
  have hvar := ekf_repeat_variance env he.solve he.plus H c hR (vs.map fun v => H *ᵥ x o + c + v o) ⟨g o, P⟩ hP u
  rw [hP', List.length_map] at hvar
  have hq := h2.2 (Hᵀ *ᵥ u)
  rw [Matrix.sub_mulVec, dotProduct_sub, moment_quad] at hq
  have e1 : (Hᵀ *ᵥ u) ⬝ᵥ cov P (sensorEvents H c R vs) *ᵥ (Hᵀ *ᵥ u) = u ⬝ᵥ (H * cov P (sensorEvents H c R vs) * Hᵀ) *ᵥ u := by
    rw [Matrix.mulVec_transpose, ← Matrix.dotProduct_mulVec, ← Matrix.mulVec_transpose, Matrix.mulVec_mulVec, Matrix.mulVec_mulVec]
  have e2 : ∀ o, (Hᵀ *ᵥ u) ⬝ᵥ (x o - g' o) = u ⬝ᵥ H *ᵥ (x o - g' o) := by
    intro o; rw [Matrix.mulVec_transpose, ← Matrix.dotProduct_mulVec]
  simp only [e1, e2] at hq
  exact (mul_le_mul_of_nonneg_left (sub_nonneg.1 hq) (Nat.cast_nonneg _)).trans hvar

/-! ## Three coins: the first error and the noises of two readings -/

def coin3 : Bool × Bool × Bool → ℚ := fun _ => 1 / 8

def noises3 : List (Bool × Bool × Bool → Vec 1 ℚ) := [fun o => sign o.2.1, fun o => sign o.2.2]

/-- A state that is -1 or 1, estimated as 0, and two readings of it with noise -1 or 1: the mean squared error is at most 1/2
(it is 1/3). -/
theorem coins_mean_square : ∃ (g' : Bool × Bool × Bool → Vec 1 ℚ) (P' : Mat 1 1 ℚ),
    (∀ o, run lineEnv 1 ⟨0, 1⟩ (opsOf o (sign o.1) (sensorEvents 1 0 1 noises3)) = some ⟨g' o, P'⟩) ∧
    (2 : ℚ) * ∑ o, coin3 o * ((sign o.1 - g' o) 0) ^ 2 ≤ 1 := by
  have hpd : PD (1 : Mat 1 1 ℚ) := by
    have := pd_one_by_one 1 (by norm_num)
    rwa [show (!![1] : Mat 1 1 ℚ) = 1 by decide +kernel] at this
  have hz : PSD (0 : Mat 1 1 ℚ) := ⟨Matrix.isSymm_zero, fun v => by simp⟩
  obtain ⟨g', P', h1, h2⟩ := ekf_repeat_mean_square (p := coin3) (fuel := 1) lineEnv_plain one_pos (fun o => by norm_num [coin3]) (1 : Mat 1 1 ℚ) 0
    hpd noises3 1 (fun o => sign o.1) (fun _ => 0)
    (by rw [show moment coin3 (fun o => sign o.1 - 0) (fun o => sign o.1 - 0) = 1 by decide +kernel, sub_self]; exact hz)
    (by
      refine ⟨fun a ha => ?_, fun a ha => ?_, trivial⟩
      · obtain rfl := List.mem_singleton.mp ha
        show moment coin3 (fun o => sign o.1 - 0) (fun o : Bool × Bool × Bool => sign o.2.1) = 0
        decide +kernel
      · rcases List.mem_cons.mp ha with rfl | ha
        · show moment coin3 (fun o : Bool × Bool × Bool => sign o.2.1) (fun o => sign o.2.2) = 0
          decide +kernel
        · obtain rfl := List.mem_singleton.mp ha
          show moment coin3 (fun o => sign o.1 - 0) (fun o : Bool × Bool × Bool => sign o.2.2) = 0
          decide +kernel)
    (by
      intro v hv
      rcases List.mem_cons.mp hv with rfl | hv
      · rw [show moment coin3 (fun o : Bool × Bool × Bool => sign o.2.1) (fun o => sign o.2.1) = 1 by decide +kernel, sub_self]; exact hz
      · obtain rfl := List.mem_singleton.mp hv
        rw [show moment coin3 (fun o : Bool × Bool × Bool => sign o.2.2) (fun o => sign o.2.2) = 1 by decide +kernel, sub_self]; exact hz)
  refine ⟨g', P', h1, ?_⟩
  have := h2 (Pi.single 0 1)
  simp only [single_one_dotProduct, Matrix.one_mulVec, Pi.single_eq_same] at this
  exact_mod_cast this

end Verif.EKF
