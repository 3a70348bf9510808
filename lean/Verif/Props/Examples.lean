import Verif.Lemmas.IewmaMain

/-
A concrete frame used to show that the hypotheses of the theorems about `ewma.py` can be met: three rows, two
assets, one `nan`.
-/
namespace CovPred.Ex
open XR

/-- returns as real numbers (the `nan` counts as 0) -/
noncomputable def x (t : ℕ) (i : Fin 2) : ℝ := if i = 0 then (t : ℝ) + 1 else if t = 1 then 0 else 2 - (t : ℝ) * 3

/-- the frame; entry `(1, 1)` is `nan` -/
noncomputable def frame : Frame ℕ (Fin 2) XR :=
  (List.range 3).map fun t => (t, Arr.ofFn fun i => if t = 1 ∧ i = 1 then nan else fin (x t i))

/-- arguments without warm-up -/
noncomputable def args : RealArgs where
  volaHalflife := 2
  covHalflife := 3
  minPeriodsVola := 1
  minPeriodsCov := 2

theorem represents : Represents frame true 3 id x := by
  refine ⟨_, rfl, ?_⟩
  intro t _ i
  rw [Arr.get_ofFn]
  by_cases h : t = 1 ∧ i = 1
  · right
    obtain ⟨rfl, rfl⟩ := h
    simp [x]
  · left
    simp [h]

/-- the same frame with a 0 instead of the `nan` -/
theorem represents_fin : Represents (finFrame 3 id x) false 3 id x :=
  ⟨fun t => finRow (x t), rfl, fun t _ i => Or.inl (by simp [finRow])⟩

theorem distinct : DistinctTimes 3 (id : ℕ → ℕ) := fun _ _ _ _ h => h

theorem valid : args.Valid := ⟨by norm_num [args], by norm_num [args], by simp [args], by simp [args]⟩

theorem live_eq : live args 3 x = [0, 1, 2] := by
  rw [show [0, 1, 2] = List.range 3 from rfl]
  apply live_eq_range
  intro t _
  refine ⟨by simp [args], 0, ?_⟩
  rintro ⟨-, h⟩
  have : cRet args x t 0 = (t : ℝ) + 1 := by simp [cRet, muOf, args, x]
  rw [this] at h
  have : (0 : ℝ) ≤ t := Nat.cast_nonneg t
  linarith

/-- the run on the concrete frame -/
theorem run : iteratedEwma frame args.toArgs = .ok [itemAt args 3 id x 1, itemAt args 3 id x 2] := by
  rw [iteratedEwma_spec valid distinct (show Represents frame args.nanToNum 3 id x from represents), live_eq]
  have : rowsFrom args.minPeriodsCov 3 = [1, 2] := by decide
  simp [this]

end CovPred.Ex
