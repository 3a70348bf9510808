import Verif.Model.ExpUtils
import Verif.Num.XR

/-
Model of `get_moving_autocorrelations` and `get_sign_prediction`, `/repo/experiments/industry_portfolios.ipynb` (line
numbers are those of the notebook file).
-/
namespace CovPred

variable {τ : Type} {n : ℕ}

/-! ### Moving autocorrelations -/

/-- The loop of pandas' `series.ewm(halflife=h).mean()` (`adjust=True`, `ignore_na=False`) on values some of which are
missing (`none`): it keeps the average so far and its total weight. (industry_portfolios.ipynb:1108) -/
noncomputable def ewmNanLoop (factor : ℝ) : Option ℝ → ℝ → List (Option ℝ) → List (Option ℝ)
  | _, _, [] => []
  | none, oldWt, x :: rest => x :: ewmNanLoop factor x oldWt rest
  | some weighted, oldWt, none :: rest => some weighted :: ewmNanLoop factor (some weighted) (oldWt * factor) rest
  | some weighted, oldWt, some x :: rest =>
    let oldWt := oldWt * factor
    let weighted := (oldWt * weighted + x) / (oldWt + 1)
    some weighted :: ewmNanLoop factor (some weighted) (oldWt + 1) rest

/-- `series.ewm(halflife=h).mean()`. (industry_portfolios.ipynb:1108) -/
noncomputable def ewmNan (halflife : ℝ) (x : List (Option ℝ)) : List (Option ℝ) :=
  ewmNanLoop (1 - (1 - Real.exp (-Real.log 2 / halflife))) none 1 x

/-- a product of two entries, missing if one of them is. (industry_portfolios.ipynb:1108) -/
noncomputable def optMul : Option ℝ → Option ℝ → Option ℝ
  | some a, some b => some (a * b)
  | _, _ => none

/-- `m / (np.sqrt(a) * np.sqrt(b))` (industry_portfolios.ipynb:1108) -/
noncomputable def corrEntry : Option ℝ → Option ℝ → Option ℝ → XR
  | some m, some a, some b => XR.fin m / (XR.fin (Real.sqrt a) * XR.fin (Real.sqrt b))
  | _, _, _ => XR.nan

/-- one column of `get_moving_autocorrelations`. (industry_portfolios.ipynb:1107-1108) -/
noncomputable def autocorrColumn (r p : List (Option ℝ)) (halflife : ℝ) : List XR :=
  let m := ewmNan halflife (List.zipWith optMul r p)
  let a := ewmNan halflife (r.map fun x => optMul x x)
  let b := ewmNan halflife (p.map fun x => optMul x x)
  List.zipWith (fun x yz => corrEntry x yz.1 yz.2) m (a.zip b)

/-- industry_portfolios.ipynb:1107-1108, `get_moving_autocorrelations` of two frames with the same index and columns
(otherwise pandas aligns them first; not modelled). -/
noncomputable def getMovingAutocorrelations (returns preds : List (τ × NRow n)) (halflife : ℝ := 125) :
    List (τ × (Fin n → XR)) :=
  (List.range returns.length).zip (returns.map Prod.fst) |>.map fun q =>
    (q.2, fun i => (autocorrColumn (returns.map fun row => row.2 i) (preds.map fun row => row.2 i) halflife)[q.1]?.getD XR.nan)

/-- `returns.shift(1)`: the row labelled `t` holds the values of the row before, the first row is missing.
(industry_portfolios.ipynb:1119) -/
def shiftFrame (rows : List (τ × NRow n)) : List (τ × NRow n) :=
  List.zip (rows.map Prod.fst) ((fun _ => none) :: rows.map Prod.snd)

/-! ### Sign predictions -/

/-- `np.argsort`: positions; which of several equal values comes first is not specified. (industry_portfolios.ipynb:1137) -/
abbrev Argsort := (n : ℕ) → Vec n → List (Fin n)

/-- `np.argsort` lists every position once, in increasing order of the values. (industry_portfolios.ipynb:1137) -/
structure Argsort.Correct (argsort : Argsort) : Prop where
  nodup : ∀ n (x : Vec n), (argsort n x).Nodup
  mem : ∀ n (x : Vec n) i, i ∈ argsort n x
  sorted : ∀ n (x : Vec n), (argsort n x).Pairwise fun i j => x i ≤ x j

open Classical in
/-- One turn of the loop of `get_sign_prediction`, for a row without `nan`. With fewer than ten columns `np.ones(10)` does
not fit (`ValueError`). (industry_portfolios.ipynb:1136-1148) -/
noncomputable def signRow (argsort : Argsort) (p : τ × Vec n) : Except Err (τ × Vec n) :=
  if n < 10 then .error .valueError
  else
    let r := p.2
    -- ten_largest = np.argsort(r_temp)[-10:]
    let tenLargest := (argsort n r).drop (n - 10)
    -- r_temp[ten_largest] = np.ones(10) * (r_temp[ten_largest]>0)
    let r1 : Vec n := fun i => if i ∈ tenLargest then (if r i > 0 then 1 else 0) else r i
    -- ten_smallest = np.argsort(r_temp)[:10]
    let tenSmallest := (argsort n r1).take 10
    -- r_temp[ten_smallest] = -np.ones(10) * (r_temp[ten_smallest]<0)
    let r2 : Vec n := fun i => if i ∈ tenSmallest then (if r1 i < 0 then -1 else 0) else r1 i
    -- r_temp[np.where(np.abs(r_temp) != 1)] = 0
    .ok (p.1, fun i => if |r2 i| ≠ 1 then 0 else r2 i)

/-- industry_portfolios.ipynb:1127-1150, `get_sign_prediction` of a frame whose labels are distinct. -/
noncomputable def getSignPrediction (argsort : Argsort) (preds : List (τ × Vec n)) : Except Err (List (τ × Vec n)) :=
  preds.mapM (signRow argsort)

end CovPred
