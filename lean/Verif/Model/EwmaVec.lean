import Verif.Model.Ewma

/-
Model of `get_next_ewma` and `ewma` of `/repo/experiments/utils/iterated_ewma_vec.py`. The helpers of that file are in
Model/EwmaVecHelpers.lean.

The function `iterated_ewma` of that file is in Model/IteratedVec.lean.
-/
namespace CovPred
open Scalar

variable {τ κ : Type} [DecidableEq τ] [Ix κ] {α : Type} [Scalar α]

/-- iterated_ewma_vec.py:14-35, `get_next_ewma` -/
def nextEwma (ewma yLast : Arr κ α) (t : ℕ) (beta : α) (clipAt : Option α) (minPeriods : Option Int) :
    Except Err (Arr κ α) :=
  let oldWeight := (beta - npow beta t) / (1 - npow beta t)
  let newWeight := (1 - beta) / (1 - npow beta t)
  let plain := Arr.ofFn fun i => oldWeight * ewma i + newWeight * yLast i
  match truthy clipAt with
  | none => .ok plain
  | some c =>
    match minPeriods with
    | none => .error .assertionError
    | some m =>
      if m = 0 then .error .assertionError
      else if (t : Int) ≥ m + 2 then
        .ok (Arr.ofFn fun i => oldWeight * ewma i + newWeight * npClip (yLast i) (-c * ewma i) (c * ewma i))
      else .ok plain

/-- iterated_ewma_vec.py:87-95, the loop of `ewma` from key number `t` on -/
def ewmaDictLoop (beta : α) (clipAt : Option α) (minPeriods : Option Int) :
    ℕ → Arr κ α → Frame τ κ α → Frame τ κ α × Option Err
  | _, _, [] => ([], none)
  | t, ewma, (time, y) :: rest =>
    match nextEwma ewma y (t + 1) beta clipAt minPeriods with
    | .error e => ([], some e)
    | .ok ewma' =>
      let r := ewmaDictLoop beta clipAt minPeriods (t + 1) ewma' rest
      ((time, ewma') :: r.1, r.2)

/-- iterated_ewma_vec.py:66-95, `ewma`: the items it yields and the exception that ends it. The dictionary is the list
of its items. -/
def ewmaDict (y : Frame τ κ α) (halflife : α) (clipAt : Option α := none) (minPeriods : Option Int := none) :
    Frame τ κ α × Option Err :=
  let beta := exp (-(log (lit 2)) / halflife)
  match y with
  | [] => ([], some .indexError)
  | (_, first) :: rest => ewmaDictLoop beta clipAt minPeriods 1 first rest

end CovPred
