import Verif.Model.Ewma

/-
Model of the functions of `/repo/experiments/extensions/generative_mode.ipynb` (line numbers are those of the notebook
file).

`np.random.multivariate_normal(0, S)` is a parameter of the model: call number `i` is the function `sample i` of the covariance `S`
it is given (the random numbers it uses are fixed), or an exception.
-/
namespace CovPred
open Scalar

variable {τ ι : Type} [DecidableEq τ] [Ix ι] {α : Type} [Scalar α]

/-- generative_mode.ipynb:151-167, the loop over the samples from number `i` on, for `k` more: `n` and `ewma` are the
variables `n` and `ewma_temp`. The samples it yields and the exception that ends it. `genarative_data.iloc[i]` past the end
raises `IndexError`. -/
def genLoop (sample : ℕ → Arr (ι × ι) α → Except Err (Arr ι α)) (beta : α) (genData : Option (List (Arr ι α))) :
    ℕ → ℕ → ℕ → Arr (ι × ι) α → List (ℕ × Arr ι α) × Option Err
  | _, 0, _, _ => ([], none)
  | i, k + 1, n, ewma =>
    match sample i ewma with
    | .error e => ([], some e)
    | .ok s =>
      match nextSample i s genData with
      | .error e => ([], some e)
      | .ok next =>
        let f := outer next
        let ewma' : Arr (ι × ι) α :=
          Arr.ofFn fun p => ewma p + (1 - beta) * (f p - ewma p) / (1 - npow beta (n + 1 + 1))
        let r := genLoop sample beta genData (i + 1) k (n + 1) ewma'
        ((i, s) :: r.1, r.2)
where
  /-- generative_mode.ipynb:156-159, `next_sample` -/
  nextSample (i : ℕ) (s : Arr ι α) : Option (List (Arr ι α)) → Except Err (Arr ι α)
    | none => .ok s
    | some rows => match rows[i]? with
      | some r => .ok r
      | none => .error .indexError

/-- What the generator `_ewma_cov` of the notebook yields: the estimates, then the samples, and the exception that ends it.
(generative_mode.ipynb:133-167) -/
structure GenRun (τ ι : Type) [Ix ι] (α : Type) where
  covs : Frame τ (ι × ι) α
  samples : List (ℕ × Arr ι α)
  err : Option Err

/-- generative_mode.ipynb:133-225, `_ewma_cov` and `_general`, which differs from `_general` of ewma.py (`general`) in
what it yields: triples from row `min_periods - 1` on, but pairs before (line 196), whose unpacking (line 138) raises
`ValueError`. So nothing is masked in what follows. `n` is the number of the last row. -/
def genEwmaCov (sample : ℕ → Arr (ι × ι) α → Except Err (Arr ι α)) (data : Frame τ ι α) (halflife : α)
    (minPeriods : Int := 0) (nSamples : Int := 0) (genData : Option (List (Arr ι α)) := none) : GenRun τ ι α :=
  match decay (some halflife) none, general data (some halflife) none outer minPeriods none with
  | .error e, _ => ⟨[], [], some e⟩
  | _, .error e => ⟨[], [], some e⟩
  | .ok beta, .ok items =>
    if (0 : Int) < minPeriods - 1 then ⟨[], [], some .valueError⟩
    else
      let covs := items.filter fun p => !(p.2.all isNaN)
      match items.getLast? with
      | none => ⟨covs, [], some .indexError⟩
      | some last =>
        let r := genLoop sample beta genData 0 nSamples.toNat (items.length - 1) last.2
        ⟨covs, r.1, r.2⟩

/-- generative_mode.ipynb:265-279, `run_sampling_experiment` from sample `i` on, for `k` more; `fit` is `fit_cm_iewma`
(lines 243-256) and `testIndex` the index of `returns_test`. The result is the table `returns_extended`. -/
def samplingLoop (fit : Frame τ ι α → Except Err (Arr (ι × ι) α))
    (sample : ℕ → Arr (ι × ι) α → Except Err (Arr ι α)) (testIndex : List τ) :
    ℕ → ℕ → Frame τ ι α → Except Err (Frame τ ι α)
  | _, 0, extended => .ok extended
  | i, k + 1, extended => do
    let cov ← fit extended
    let s ← sample i cov
    match testIndex[i]? with
    | none => .error .indexError
    | some t => samplingLoop fit sample testIndex (i + 1) k (extended ++ [(t, s)])

/-- generative_mode.ipynb:265-279, `run_sampling_experiment`; the number of samples is 100 in the notebook. -/
def runSamplingExperiment (fit : Frame τ ι α → Except Err (Arr (ι × ι) α))
    (sample : ℕ → Arr (ι × ι) α → Except Err (Arr ι α)) (train : Frame τ ι α) (testIndex : List τ) (num : ℕ := 100) :
    Except Err (Frame τ ι α) :=
  samplingLoop fit sample testIndex 0 num train

end CovPred
