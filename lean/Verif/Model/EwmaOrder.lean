import Verif.Model.Ewma

/-
`iterated_ewma` of `/repo/cvx/covariance/ewma.py` for an index in any order (`Model/Ewma` is for rows in increasing order of the
labels). The difference is in the arithmetic of frames: pandas aligns two frames with different indices on their sorted union.
The labels are distinct.
-/
namespace CovPred
open Scalar

variable {τ ι κ : Type} [LinearOrder τ] [Ix ι] [Ix κ] {α : Type} [Scalar α]

/-- Binary arithmetic `f op g` of two frames with the same columns where the index of `g` is contained in that of `f`: the rows
of `f`, with `nan` where `g` has none; in their order if the indices are equal (or `g` is empty), else sorted by label (`Index.join`,
`Index.union`). (ewma.py:70, 163) -/
def Frame.alignPd (op : α → α → α) (f g : Frame τ ι α) : Frame τ ι α :=
  if f.index = g.index ∨ g.length = 0 then Frame.alignWith op f g
  else (Frame.alignWith op f g).mergeSort fun p q => decide (p.1 ≤ q.1)

/-- ewma.py:50-72, `center` -/
def centerPd (returns : Frame τ ι α) (halflife : α) (minPeriods : Int) (meanAdj : Bool) :
    Except Err (Frame τ ι α × Frame τ ι α) :=
  if meanAdj then
    (ewmaMean returns halflife minPeriods none).map fun mean =>
      ((Frame.alignPd (· - ·) returns mean).dropnaAll, mean)
  else
    .ok (returns, returns.mapVals fun x => 0 * x)

/-- ewma.py:88-183, `iterated_ewma`: the list of the results it yields. -/
def iteratedEwmaPd (returns : Frame τ ι α) (a : IewmaArgs α) : Except Err (List (IEWMA τ ι α)) := do
  let muHalflife1 := (truthy a.muHalflife1).getD a.volaHalflife
  let muHalflife2 := (truthy a.muHalflife2).getD a.covHalflife
  let returns := if a.nanToNum then (if returns.hasNaN then returns.fillna0 else returns) else returns
  let (returns, returnsMean) ← centerPd returns muHalflife1 0 a.mean
  let vola ← volatility returns a.volaHalflife a.minPeriodsVola a.clipAt
  let adj := (clip (Frame.alignPd (· / ·) returns vola) a.clipAt).fillna0
  let (adj, adjMean) ← centerPd adj muHalflife2 0 a.mean
  let covs ← ewmaCov adj a.covHalflife a.minPeriodsCov
  covs.mapM fun p => iewmaItem a.mean vola returnsMean adjMean p.1 p.2

end CovPred
