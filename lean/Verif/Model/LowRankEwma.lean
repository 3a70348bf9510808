import Verif.Model.Ewma
import Verif.Model.Regularization
import Verif.Spec.Iewma

/-
Model of `/repo/experiments/utils/low_rank_ewma.py`, function by function.

Simplifications: the recursion runs on real numbers; as soon as a `nan` or an infinity would enter it the model stops
with `Err.other` (the code carries on with `nan`, or ARPACK raises). A frame without columns is not modelled.
-/
namespace CovPred
open Matrix

variable {τ : Type} [DecidableEq τ] {n r : ℕ}

/-- The sparse eigenvalue routine `eigsh(A, k=rank, which="LM")` (low_rank_ewma.py:169); which orthonormal
eigenvectors it returns is up to ARPACK. -/
abbrev Eigsh := ∀ n : ℕ, Mat n → (r : ℕ) → Vec r × Matrix (Fin n) (Fin r) ℝ

/-- The contract of `eigsh` on positive semidefinite operators (where the eigenvalues of largest magnitude are the
largest ones): they are returned ascending, with orthonormal eigenvectors. (low_rank_ewma.py:169) -/
def Eigsh.Correct (eigsh : Eigsh) : Prop :=
  ∀ (n : ℕ) (M : Mat n) (r : ℕ), M.PosSemidef → 1 ≤ r → r < n → TopEigen M (eigsh n M r).1 (eigsh n M r).2

open Classical in
/-- low_rank_ewma.py:127-186, `_low_rank_sum`. The operator handed to `eigsh` does not contain `D` (the docstring says
it does). `eigsh` rejects `k >= n` for a `LinearOperator` with `TypeError`. A zero under the square root of line 164
gives `nan`s. -/
noncomputable def lowRankSum (eigsh : Eigsh) (F : Matrix (Fin n) (Fin r) ℝ) (d row : Vec n) :
    Except Err (LowRankDiag n r) :=
  if n ≤ r then .error .typeError
  else if ∃ i, (∑ j, F i j ^ 2) + row i ^ 2 = 0 then .error .other
  else
    -- line 164
    let scale : Vec n := fun i => 1 / Real.sqrt ((∑ j, F i j ^ 2) + row i ^ 2)
    -- lines 141-150 and 166
    let sF : Matrix (Fin n) (Fin r) ℝ := Matrix.of fun i j => scale i * F i j
    let A : Mat n := sF * sFᵀ + Matrix.of fun i j => (scale i * row i) * (row j * scale j)
    -- lines 169-172
    let lamda : Vec r := fun j => if (eigsh n A r).1 j < 0 then 0 else (eigsh n A r).1 j
    let Q := (eigsh n A r).2
    -- line 175
    let Ftemp : Matrix (Fin n) (Fin r) ℝ := Matrix.of fun i j => Q i j * Real.sqrt (lamda j)
    -- lines 152-161 and 178
    let newDiag : Vec n := fun i => 1 + d i * scale i ^ 2 - ∑ j, Ftemp i j ^ 2
    let dHat : Vec n := fun i => 1 / scale i * newDiag i * 1 / scale i
    -- lines 181-186
    .ok { F := Matrix.of fun i j => 1 / scale i * Ftemp i j
          d := fun i => if dHat i < 0 then 0 else dHat i }

/-- low_rank_ewma.py:231-238, one pass of the loop with row number `k ≥ 1` -/
noncomputable def lowRankStep (eigsh : Eigsh) (beta : ℝ) (k : ℕ) (x : LowRankDiag n r) (row : Vec n) :
    Except Err (LowRankDiag n r) :=
  let coefOld := (beta - beta ^ (k + 1)) / (1 - beta ^ (k + 1))
  let coefNew := (1 - beta) / (1 - beta ^ (k + 1))
  lowRankSum eigsh (Matrix.of fun i j => x.F i j * Real.sqrt coefOld) (fun i => x.d i * coefOld)
    (fun i => row i * Real.sqrt coefNew)

/-- low_rank_ewma.py:209-215, `f(k)`: `none` stands for the pair of all-`nan` arrays -/
def maskLowRank (minPeriods : Int) (k : ℕ) (x : LowRankDiag n r) : Option (LowRankDiag n r) :=
  if (k : Int) < minPeriods - 1 then none else some x

open Classical in
/-- A row of `data.values`; `none` if it contains a `nan` or an infinity (outside the model).
(low_rank_ewma.py:223-236) -/
noncomputable def realRow (row : Arr (Fin n) XR) : Option (Vec n) :=
  if ∀ i, ∃ v : ℝ, row i = XR.fin v then some fun i => (row i).toReal else none

/-- low_rank_ewma.py:230-240, the loop from row `k` on: the items yielded and the exception that ends it, if any -/
noncomputable def lowRankLoop (eigsh : Eigsh) (beta : ℝ) (minPeriods : Int) :
    ℕ → LowRankDiag n r → Frame τ (Fin n) XR → List (τ × Option (LowRankDiag n r)) × Option Err
  | _, _, [] => ([], none)
  | k, x, (t, row) :: rest =>
    match realRow row with
    | none => ([], some .other)
    | some v =>
      match lowRankStep eigsh beta k x v with
      | .error e => ([], some e)
      | .ok y =>
        let out := lowRankLoop eigsh beta minPeriods (k + 1) y rest
        ((t, maskLowRank minPeriods k y) :: out.1, out.2)

open Classical in
/-- low_rank_ewma.py:217-220, `beta` -/
noncomputable def lowRankBeta (halflife alpha : Option ℝ) : Except Err ℝ :=
  match halflife with
  | some h =>
    if h = 0 then
      match alpha with
      | some a => .ok (1 - a)
      | none => .error .typeError
    else .ok (1 - (1 - Real.exp (-Real.log 2 / h)))
  | none =>
    match alpha with
    | some a => .ok (1 - a)
    | none => .error .typeError

/-- low_rank_ewma.py:189-240, `_general_low_rank`. `F_init[:, 0]` of rank 0 and `y[0]` of an empty frame raise
`IndexError`. -/
noncomputable def generalLowRank (eigsh : Eigsh) (rank : ℕ) (y : Frame τ (Fin n) XR) (halflife alpha : Option ℝ)
    (minPeriods : Int) : List (τ × Option (LowRankDiag n rank)) × Option Err :=
  match lowRankBeta halflife alpha with
  | .error e => ([], some e)
  | .ok beta =>
    match y with
    | [] => ([], some .indexError)
    | (t, row) :: rest =>
      if rank = 0 then ([], some .indexError)
      else
        match realRow row with
        | none => ([], some .other)
        | some v =>
          let x : LowRankDiag n rank := { F := Matrix.of fun i j => if j.val = 0 then v i else 0, d := fun _ => 0 }
          let out := lowRankLoop eigsh beta minPeriods 1 x rest
          ((t, maskLowRank minPeriods 0 x) :: out.1, out.2)

/-- low_rank_ewma.py:104-124, `_ewma_low_rank`: drops the all-`nan` items -/
noncomputable def ewmaLowRank (eigsh : Eigsh) (rank : ℕ) (data : Frame τ (Fin n) XR) (halflife : ℝ) (minPeriods : Int) :
    List (τ × LowRankDiag n rank) × Option Err :=
  let out := generalLowRank eigsh rank data (some halflife) none minPeriods
  (out.1.filterMap fun p => p.2.map fun x => (p.1, x), out.2)

/-- `LowRankCovariance` of the results (low_rank_ewma.py:12) -/
structure LowRankCov (n r : ℕ) where
  F : Arr (Fin n × Fin r) XR
  d : Arr (Fin n) XR

/-- low_rank_ewma.py:16-17 and 35-54, `_get_diagonal` and `scale_low_rank` -/
noncomputable def scaleLowRank (vola : Arr (Fin n) XR) (x : LowRankDiag n r) : LowRankCov n r :=
  let v : Fin n → XR := fun i => (1 : XR) / Scalar.sqrt (XR.fin ((∑ j, x.F i j ^ 2) + x.d i))
  { F := Arr.ofFn fun p => vola p.1 * (v p.1 * XR.fin (x.F p.1 p.2))
    d := Arr.ofFn fun i => Scalar.npow (vola i) 2 * (Scalar.npow (v i) 2 * XR.fin (x.d i)) }

/-- The results (low_rank_ewma.py:13) -/
structure LowRankItem (τ : Type) (n r : ℕ) where
  time : τ
  mean : Arr (Fin n) XR
  covariance : LowRankCov n r
  volatility : Arr (Fin n) XR

/-- low_rank_ewma.py:91-101, the body of the final loop -/
noncomputable def lowRankItem (mean : Bool) (vola returnsMean adjMean : Frame τ (Fin n) XR) (t : τ) (x : LowRankDiag n r) :
    Except Err (LowRankItem τ n r) := do
  let m ← if mean then do
      let v ← locE vola t
      let m1 ← locE returnsMean t
      let m2 ← locE adjMean t
      pure (scaleMean v m1 m2)
    else pure (Arr.ofFn fun _ => 0)
  let v ← locE vola t
  pure { time := t, mean := m, covariance := scaleLowRank v x, volatility := v }

/-- low_rank_ewma.py:59-80, everything before the final loop: the volatilities, the two means and the adjusted
returns. Unlike `iterated_ewma` there is no `fillna`. The arguments are ordinary numbers. -/
noncomputable def lowRankPrep (returns : Frame τ (Fin n) XR) (a : RealArgs) :
    Except Err (Frame τ (Fin n) XR × Frame τ (Fin n) XR × Frame τ (Fin n) XR × Frame τ (Fin n) XR) := do
  let muHalflife1 := (Scalar.truthy a.toArgs.muHalflife1).getD a.toArgs.volaHalflife
  let muHalflife2 := (Scalar.truthy a.toArgs.muHalflife2).getD a.toArgs.covHalflife
  let (returns, returnsMean) ← center returns muHalflife1 0 a.mean
  let vola ← volatility returns a.toArgs.volaHalflife a.minPeriodsVola a.toArgs.clipAt
  let adj := clip (Frame.alignWith (· / ·) returns vola) a.toArgs.clipAt
  let (adj, adjMean) ← center adj muHalflife2 0 a.mean
  pure (vola, returnsMean, adjMean, adj)

/-- low_rank_ewma.py:20-101, `low_rank_iterated_ewma` (`nanToNum` of the arguments is not used): the items yielded and
the exception that ends the generator, if any -/
noncomputable def lowRankIteratedEwma (eigsh : Eigsh) (rank : ℕ) (returns : Frame τ (Fin n) XR) (a : RealArgs) :
    List (LowRankItem τ n rank) × Option Err :=
  match lowRankPrep returns a with
  | .error e => ([], some e)
  | .ok (vola, returnsMean, adjMean, adj) =>
    let inner := ewmaLowRank eigsh rank adj a.covHalflife a.minPeriodsCov
    let out := genMap (fun p => lowRankItem a.mean vola returnsMean adjMean p.1 p.2) inner.1
    (out.1, match out.2 with
      | some e => some e
      | none => inner.2)

end CovPred
