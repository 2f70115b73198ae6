import Verif.Props.PIDRound
import Verif.Proofs.QPFloat

/-! # The PID controller in 53 bits (C136) -/

namespace Verif.PID

open Verif.QP (floatArith floatArith_rounds flBits)

/-- The line, with time and position in exact numbers. -/
def lineEnv : Env ℚ ℚ ℚ 1 := ⟨fun g x _ => g - x, fun t s => t - s, 0⟩

/-- Two calls a tenth of a second apart, at a distance of 1/3. -/
def lineOps : List (Op ℚ ℚ ℚ 1) := [.setKiAll 2, .call 0 (1 / 3) 0, .call (1 / 10) (1 / 3) 0]

/-- The integral is rounded. -/
example : (runR (floatArith 52) lineEnv (init lineEnv (some 10)) lineOps).iErr 0 ≠ -1 / 30 ∧ (run lineEnv (init lineEnv (some 10)) lineOps).iErr 0 = -1 / 30 := by
  constructor
  · simp only [runR, lineOps, List.foldl_cons, List.foldl_nil, stepR, callR, step, integrateR, init, lineEnv]
    rw [if_pos (by norm_num)]
    change min (max (flBits 52 (0 + flBits 52 ((1 / 10 - 0) * (0 - 1 / 3)))) (-10)) 10 ≠ -1 / 30
    decide +kernel
  · simp only [run, lineOps, List.foldl_cons, List.foldl_nil, call, step, integrate, init, lineEnv]
    rw [if_pos (by norm_num)]
    norm_num [windupClamp]

theorem line_steps : Steps lineEnv 1 (init lineEnv (some 10)) (lineOps ++ [.call (1 / 5) (1 / 3) 0]) := by
  refine ⟨fun t x v h => by (cases h), fun t x v h tl htl => by (cases htl), fun t x v h tl htl _ k => ?_, fun t x v h tl htl _ k => ?_, trivial⟩
  · cases h
    cases htl
    norm_num [lineEnv, init, step, call]
  · cases h
    cases htl
    norm_num [lineEnv, init, step, call]

/-- Its output after three calls is right to about 50 bits. -/
example : ∃ y w, (stepR (floatArith 52) lineEnv (runR (floatArith 52) lineEnv (init lineEnv (some 10)) lineOps) (.call (1 / 5) (1 / 3) 0)).2 = some y ∧
    (step lineEnv (run lineEnv (init lineEnv (some 10)) lineOps) (.call (1 / 5) (1 / 3) 0)).2 = some w ∧ |y 0 - w 0| ≤ 1 / 10 ^ 13 := by
  obtain ⟨y, w, h1, h2, h3⟩ := pid_output_rounded (floatArith_rounds 52) lineEnv (b := 10) (c := 1) (by norm_num) (by norm_num) lineOps (1 / 5) (1 / 3) 0 line_steps 0
  refine ⟨y, w, h1, h2, h3.trans ?_⟩
  norm_num [lineEnv, lineOps, run, step, call, init, calls, QPSpec.amp]

/-- An integral of 1000 that was gathered earlier. -/
def loaded : State ℚ ℚ ℚ 1 := { init lineEnv none with iErr := fun _ => 1000, tLast := some 0 }

/-- Calls every 10 milliseconds, for as long as one likes. -/
def ticks (N : ℕ) : List ℚ := (List.range N).map fun k : ℕ => ((k : ℚ) + 1) / 100

/-- In 53 bits a position that is wrong by 10^-12 is never corrected by the integral, whatever its gain: the integral stays 1000 for ever. In exact arithmetic it grows without limit (`line_exact`). -/
theorem line_dead (N : ℕ) : (runR (floatArith 52) lineEnv loaded ((ticks N).map fun t => .call t (-1 / 10 ^ 12) 0)).iErr = loaded.iErr := by
  refine pid_dead_zone (floatArith 52) lineEnv (-1 / 10 ^ 12) 0 (ticks N) loaded 0 rfl rfl ?_
  have key : ∀ (N a : ℕ), Lost (floatArith 52) lineEnv loaded (-1 / 10 ^ 12) ((a : ℚ) / 100) ((List.range N).map fun k => (((k + a : ℕ) : ℚ) + 1) / 100) := by
    intro N
    induction N with
    | zero => intro a; trivial
    | succ N ih =>
      intro a
      rw [List.range_succ_eq_map, List.map_cons, List.map_map]
      refine ⟨fun k => ?_, ?_⟩
      · have e : lineEnv.tminus ((((0 + a : ℕ) : ℚ) + 1) / 100) ((a : ℚ) / 100) = 1 / 100 := by
          simp only [lineEnv, zero_add]
          ring
        rw [e]
        change flBits 52 (1000 + flBits 52 (1 / 100 * (0 - -1 / 10 ^ 12))) = 1000
        decide +kernel
      · have := ih (a + 1)
        have e : ((a + 1 : ℕ) : ℚ) / 100 = (((0 + a : ℕ) : ℚ) + 1) / 100 := by push_cast; ring
        rw [e] at this
        refine cast ?_ this
        congr 1
        refine List.map_congr_left fun k _ => ?_
        simp only [Function.comp_apply]
        push_cast
        ring
  have := key N 0
  simpa [ticks] using this

/-- The same calls in exact arithmetic. -/
theorem line_exact (N : ℕ) : (run lineEnv loaded ((ticks N).map fun t => .call t (-1 / 10 ^ 12) 0)).iErr 0 = 1000 + N / 10 ^ 14 := by
  have key : ∀ (N a : ℕ) (s : State ℚ ℚ ℚ 1), s.windup = none → s.xdes = loaded.xdes → s.tLast = some ((a : ℚ) / 100) →
      (run lineEnv s (((List.range N).map fun k : ℕ => (((k + a : ℕ) : ℚ) + 1) / 100).map fun t => .call t (-1 / 10 ^ 12) 0)).iErr 0 = s.iErr 0 + N / 10 ^ 14 := by
    intro N
    induction N with
    | zero => intro a s _ _ _; simp [run]
    | succ N ih =>
      intro a s hw hx ht
      have e1 : (List.range (N + 1)).map (fun k : ℕ => (((k + a : ℕ) : ℚ) + 1) / 100) =
          ((a : ℚ) + 1) / 100 :: (List.range N).map fun k : ℕ => (((k + (a + 1) : ℕ) : ℚ) + 1) / 100 := by
        rw [List.range_succ_eq_map, List.map_cons, List.map_map]
        congr 1
        · simp
        · refine List.map_congr_left fun k _ => ?_
          simp only [Function.comp_apply]
          push_cast
          ring
      rw [e1, List.map_cons, run, List.foldl_cons]
      have h1 := ih (a + 1) (call lineEnv s (((a : ℚ) + 1) / 100) (-1 / 10 ^ 12) 0).1 hw hx (by simp [call])
      refine h1.trans ?_
      have h2 : (call lineEnv s (((a : ℚ) + 1) / 100) (-1 / 10 ^ 12) 0).1.iErr 0 = s.iErr 0 + 1 / 10 ^ 14 := by
        change integrate lineEnv s _ _ 0 = _
        unfold integrate
        rw [ht, hx, hw]
        simp only
        rw [if_pos (by linarith)]
        change s.iErr 0 + (((a : ℚ) + 1) / 100 - (a : ℚ) / 100) * (0 - -1 / 10 ^ 12) = _
        ring
      rw [h2]
      push_cast
      ring
  have := key N 0 loaded rfl rfl (by simp [loaded])
  have e : loaded.iErr 0 = 1000 := rfl
  rw [e] at this
  simpa [ticks] using this

end Verif.PID
