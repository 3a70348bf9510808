import Verif.Model.IteratedVec
import Mathlib.Tactic

/-
C182: the vectorised `iterated_ewma` of `experiments/utils/iterated_ewma_vec.py` raises `TypeError` on every call.
-/
namespace CovPred

variable {n : ℕ}

/-- C182: whatever the returns (also none), the half-life, the warm-up, `mean` and `clip_at` are and whatever the lines after
the first use of `ewma` would do, the call raises `TypeError`. -/
theorem C182_type_error {A : Type} (rest : VecVal n → VecVal n → VecVal n → Except Err A) (returns : List (Vec n))
    (volaHalflife : ℝ) (minPeriodsVola : Int) (mean : Bool) (clipAt : Option ℝ) :
    iteratedVec ewmaCall rest returns volaHalflife minPeriodsVola mean clipAt = .error .typeError := by
  unfold iteratedVec ewmaCall
  cases mean
  · rfl
  · by_cases h : returns = [] ∨ n = 0
    · simp only [if_true, VecVal.sub, if_pos h]
      rfl
    · simp only [if_true, VecVal.sub, if_neg h]
      rfl

/-- C182: the reason is the function `ewma` alone: with one that returns arrays (as the commented-out lines 38-63 do) the code
goes on to its next part with the square roots of what that function makes of the squared returns. -/
theorem C182_array_version {A : Type} (ew : List (Vec n) → ℝ → Option ℝ → Option Int → List (Vec n))
    (ewma : EwmaFn n) (hew : ∀ rows h c m, ewma (.array rows) h c m = .array (ew rows h c m))
    (rest : VecVal n → VecVal n → VecVal n → Except Err A) (returns : List (Vec n))
    (volaHalflife : ℝ) (minPeriodsVola : Int) (clipAt : Option ℝ) :
    iteratedVec ewma rest returns volaHalflife minPeriodsVola false clipAt
      = rest (.array returns) (.array (returns.map fun _ _ => 0))
          (.array ((ew (returns.map fun r i => r i ^ 2) volaHalflife ((clipAt.filter (· ≠ 0)).map fun c => c ^ 2)
            (some (max 1 minPeriodsVola))).map fun r i => Real.sqrt (r i))) := by
  have hz : List.zipWith (fun (x y : Vec n) i => x i - y i) returns (returns.map fun _ _ => 0) = returns := by
    induction returns with
    | nil => rfl
    | cons r rs ih =>
      rw [List.map_cons, List.zipWith_cons_cons, ih]
      simp
  unfold iteratedVec
  simp only [Bool.false_eq_true, if_false, VecVal.sub, hz]
  show (do
    let D ← (ewma (.array (getRealizedVars returns)) volaHalflife ((clipAt.filter (· ≠ 0)).map fun c => c ^ 2)
      (some (max 1 minPeriodsVola))).sqrt
    rest (.array returns) (.array (returns.map fun _ _ => 0)) D) = _
  rw [hew]
  rfl

/-- Two days of two assets, with `mean` and clipping: the call raises. -/
example : iteratedVec (n := 2) ewmaCall (fun _ _ D => .ok D) [![1, 2], ![3, 4]] 10 20 true (some 4) = .error .typeError :=
  C182_type_error _ _ _ _ _ _

/-- With a function that returns the array itself the volatilities of the first two days come out. -/
example : iteratedVec (n := 1) (fun y _ _ _ => y) (fun _ _ D => .ok D) [![2], ![3]] 10 20 false none
    = .ok (.array [![2], ![3]]) := by
  rw [C182_array_version (fun rows _ _ _ => rows) _ (fun _ _ _ _ => rfl)]
  simp only [List.map_cons, List.map_nil]
  congr 3
  · funext i; fin_cases i; simp
  · congr 1; funext i; fin_cases i; simp

end CovPred
