import Verif.Model.Arr

/-
Model of `/repo/cvx/covariance/ewma.py`, function by function.
-/
namespace CovPred
open Scalar

variable {τ ι κ : Type} [DecidableEq τ] [Ix ι] [Ix κ] {α : Type} [Scalar α]

/-- ewma.py:242-245, `beta` of `_general`: from the half-life if it is truthy, else from `alpha`
(`1 - None` raises `TypeError`). -/
def decay (halflife alpha : Option α) : Except Err α :=
  match truthy halflife with
  | some h => .ok (1 - (1 - exp (-(log (lit 2)) / h)))
  | none => match alpha with
    | some a => .ok (1 - a)
    | none => .error .typeError

/-- ewma.py:236-240, `f(k)`: the value yielded for row `k`, all `nan` before `min_periods` observations. -/
def maskWarmup (minPeriods : Int) (k : Nat) (ewma : Arr κ α) : Arr κ α :=
  if (k : Int) < minPeriods - 1 then ewma.map (· * nan) else ewma

/-- ewma.py:258-263, one update of `_ewma` with the row number `n ≥ 1`. -/
def ewmaUpdate (beta : α) (minPeriods : Int) (clipAt : Option α) (n : Nat) (ewma next : Arr κ α) :
    Arr κ α :=
  let plain := Arr.ofFn fun i => ewma i + (1 - beta) * (next i - ewma i) / (1 - npow beta (n + 1))
  match truthy clipAt with
  | some c =>
    if (n : Int) ≥ minPeriods + 1 then
      Arr.ofFn fun i =>
        ewma i + (1 - beta) * (npClip (next i) (-c * ewma i) (c * ewma i) - ewma i)
          / (1 - npow beta (n + 1))
    else plain
  | none => plain

/-- ewma.py:252-265, the loop of `_general` over the rows from row `n` on. -/
def generalLoop (beta : α) (fct : Arr ι α → Arr κ α) (minPeriods : Int) (clipAt : Option α) :
    Nat → Arr κ α → Frame τ ι α → Frame τ κ α
  | _, _, [] => []
  | n, ewma, (t, row) :: rest =>
    let ewma' := ewmaUpdate beta minPeriods clipAt n ewma (fct row)
    (t, maskWarmup minPeriods n ewma') :: generalLoop beta fct minPeriods clipAt (n + 1) ewma' rest

/-- ewma.py:216-265, `_general`: the list of `(time, ewma)` it yields. `y[0]` on an empty frame raises
`IndexError`; `alpha` is only used when the half-life is falsy. -/
def general (y : Frame τ ι α) (halflife alpha : Option α) (fct : Arr ι α → Arr κ α)
    (minPeriods : Int) (clipAt : Option α) : Except Err (Frame τ κ α) :=
  match decay halflife alpha with
  | .error e => .error e
  | .ok beta =>
    match y with
    | [] => .error .indexError
    | (t, row) :: rest =>
      let ewma := fct row
      .ok ((t, maskWarmup minPeriods 0 ewma) :: generalLoop beta fct minPeriods clipAt 1 ewma rest)

/-- ewma.py:203-213, `_ewma_mean`: yields the rows that are not entirely `nan`.
The half-life is a number here (a half-life of 0 is falsy and raises `TypeError` in `decay`). -/
def ewmaMean (data : Frame τ ι α) (halflife : α) (minPeriods : Int) (clipAt : Option α) :
    Except Err (Frame τ ι α) :=
  (general data (some halflife) none (fun x => x) minPeriods clipAt).map
    (List.filter fun p => !(p.2.all isNaN))

/-- ewma.py:196 `np.outer(x, x)` -/
def outer (x : Arr ι α) : Arr (ι × ι) α := Arr.ofFn fun p => x p.1 * x p.2

/-- ewma.py:186-200, `_ewma_cov`. -/
def ewmaCov (data : Frame τ ι α) (halflife : α) (minPeriods : Int) : Except Err (Frame τ (ι × ι) α) :=
  (general data (some halflife) none outer minPeriods none).map
    (List.filter fun p => !(p.2.all isNaN))

/-- ewma.py:16-30, `_variance` -/
def variance (returns : Frame τ ι α) (halflife : α) (minPeriods : Int) (clipAt : Option α) :
    Except Err (Frame τ ι α) :=
  ewmaMean (returns.mapVals fun x => npow x 2) halflife minPeriods clipAt

/-- ewma.py:33-47, `volatility` (`_generator2frame`, ewma.py:12-13, is the identity on the list of rows when the
labels are distinct). -/
def volatility (returns : Frame τ ι α) (halflife : α) (minPeriods : Int) (clipAt : Option α) :
    Except Err (Frame τ ι α) :=
  let clipAtVar := (truthy clipAt).map fun c => npow c 2
  (variance returns halflife minPeriods clipAtVar).map (Frame.mapVals sqrt)

/-- ewma.py:50-72, `center`: the centred returns and their mean. -/
def center (returns : Frame τ ι α) (halflife : α) (minPeriods : Int) (meanAdj : Bool) :
    Except Err (Frame τ ι α × Frame τ ι α) :=
  if meanAdj then
    (ewmaMean returns halflife minPeriods none).map fun mean =>
      ((Frame.alignWith (· - ·) returns mean).dropnaAll, mean)
  else
    .ok (returns, returns.mapVals fun x => 0 * x)

/-- `DataFrame.clip(lower=-c, upper=c)` of one entry (ewma.py:83): pandas orders the two scalar bounds, keeps
`nan` entries and ignores a `nan` bound. -/
def pdClip (c x : α) : α :=
  if isNaN c then x
  else if isNaN x then x
  else
    let lo := if leb (-c) c then -c else c
    let hi := if leb (-c) c then c else -c
    if leb x hi then (if leb lo x then x else lo) else hi

/-- ewma.py:75-85, `clip`. -/
def clip (data : Frame τ ι α) (clipAt : Option α) : Frame τ ι α :=
  match truthy clipAt with
  | some c => (data.mapVals (pdClip c)).dropnaAll
  | none => data.dropnaAll

/-- ewma.py:9, the namedtuple `IEWMA`. -/
structure IEWMA (τ ι : Type) [Ix ι] (α : Type) where
  time : τ
  mean : Arr ι α
  covariance : Arr (ι × ι) α
  volatility : Arr ι α

/-- The arguments of `iterated_ewma` other than the returns, with its defaults (ewma.py:88-99). -/
structure IewmaArgs (α : Type) where
  volaHalflife : α
  covHalflife : α
  minPeriodsVola : Int := 20
  minPeriodsCov : Int := 20
  mean : Bool := false
  muHalflife1 : Option α := none
  muHalflife2 : Option α := none
  clipAt : Option α := none
  nanToNum : Bool := true

/-- ewma.py:127-133, the correlation matrix of `scale_cov`: entries in the row and column of a zero diagonal
element become `nan`. -/
def toCorrelation (matrix : Arr (ι × ι) α) : Arr (ι × ι) α :=
  let v : ι → α := fun i =>
    let d := matrix (i, i)
    if isZero d then nan else 1 / sqrt d
  Arr.ofFn fun p => v p.1 * matrix p * v p.2

/-- ewma.py:120-137, `scale_cov`. -/
def scaleCov (vola : Arr ι α) (matrix : Arr (ι × ι) α) : Arr (ι × ι) α :=
  let corr := toCorrelation matrix
  Arr.ofFn fun p => vola p.1 * corr p * vola p.2

/-- ewma.py:139-140, `scale_mean`. -/
def scaleMean (vola vec1 vec2 : Arr ι α) : Arr ι α := Arr.ofFn fun i => vec1 i + vola i * vec2 i

/-- `frame.loc[t]`, raising `KeyError`. (ewma.py:175-182) -/
def locE (f : Frame τ ι α) (t : τ) : Except Err (Arr ι α) :=
  match f.loc? t with
  | some r => .ok r
  | none => .error .keyError

/-- ewma.py:169-183, the body of the final loop for one `(t, matrix)`. -/
def iewmaItem (mean : Bool) (vola returnsMean adjMean : Frame τ ι α) (t : τ) (matrix : Arr (ι × ι) α) :
    Except Err (IEWMA τ ι α) := do
  let m ← if mean then do
      let v ← locE vola t
      let m1 ← locE returnsMean t
      let m2 ← locE adjMean t
      pure (scaleMean v m1 m2)
    else pure (Arr.ofFn fun _ => 0)
  let v ← locE vola t
  pure { time := t, mean := m, covariance := scaleCov v matrix, volatility := v }

/-- ewma.py:88-183, `iterated_ewma`: the list of the results it yields. (A generator; all exceptions other than a
`KeyError` in the final loop happen before the first result, and `KeyError` never happens,
`Verif.Props`. Rows in increasing order of their labels; any order: `iteratedEwmaPd` in `Model/EwmaOrder`.) -/
def iteratedEwma (returns : Frame τ ι α) (a : IewmaArgs α) : Except Err (List (IEWMA τ ι α)) := do
  let muHalflife1 := (truthy a.muHalflife1).getD a.volaHalflife
  let muHalflife2 := (truthy a.muHalflife2).getD a.covHalflife
  let returns := if a.nanToNum then (if returns.hasNaN then returns.fillna0 else returns) else returns
  let (returns, returnsMean) ← center returns muHalflife1 0 a.mean
  let vola ← volatility returns a.volaHalflife a.minPeriodsVola a.clipAt
  let adj := (clip (Frame.alignWith (· / ·) returns vola) a.clipAt).fillna0
  let (adj, adjMean) ← center adj muHalflife2 0 a.mean
  let covs ← ewmaCov adj a.covHalflife a.minPeriodsCov
  covs.mapM fun p => iewmaItem a.mean vola returnsMean adjMean p.1 p.2

end CovPred
