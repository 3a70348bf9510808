import Verif.Model.SolveCall
import Verif.Model.Ewma

/-
How the generators of the package are consumed: `iterated_ewma` (ewma.py:88-183) and the method `solve`
(combination.py:203-266) are generator functions. A call does nothing; the work is done by `next`, which the caller may
interleave with other generators on the same object and with changes of the data it has passed.

The object keeps references to the caller's frame of returns and dictionary of covariances (combination.py:167-169); the
factors are computed by the constructor (lines 172-175). Modelled are changes of the values and rows of the frame of
returns, of the keys of the dictionary, and of the list `times`. Changes of the columns of the frame are not modelled.
-/
namespace CovPred

variable {τ L : Type} [LinearOrder τ] {n K : ℕ}

/-- What a call of `next` does: it returns an item (`None` is `none`), raises an exception, or raises `StopIteration`.
(combination.py:258-266) -/
inductive NextOut (A : Type) where
  | item (x : Option A)
  | raises (e : Err)
  | stop

/-- A generator made by `solve(window, times, **kwargs)`: before the first `next`, at a `yield`, or ended. At a `yield` its
frame holds the window, the parameter values given to the problem so far and the dictionaries `A`, `P_chol`.
(combination.py:203-266) -/
inductive SolveGen (τ : Type) (n K : ℕ) where
  | fresh (solver : Solver n K) (window : Option Int) (times : Option (List τ))
  | paused (solver : Solver n K) (w : ℕ) (hist : List (Params n K)) (todo : List (τ × Params n K))
  | ended

/-- An item with its weights under their labels. (combination.py:96, 286) -/
abbrev SolveItem (τ L : Type) (n K : ℕ) := Result τ n K × List (L × ℝ)

/-- combination.py:258-266 from the top of the loop to the next `yield`. `problem.weights` (line 96) labels the weights with
the keys the dictionary has at that moment (`self.keys` is a live view); another number of keys raises `ValueError`. -/
noncomputable def loopNext (rows : List (Row τ n K)) (keys : List L) (solver : Solver n K) (w : ℕ) (hist : List (Params n K)) :
    List (τ × Params n K) → SolveGen τ n K × NextOut (SolveItem τ L n K)
  | [] => (.ended, .stop)
  | (t, p) :: rest =>
    if p.A.length ≠ w then (.ended, .raises .valueError)
    else
      let hist' := hist ++ [p]
      match solver hist' with
      | .raises e => (.ended, .raises e)
      | .solverError => (.paused solver w hist' rest, .item none)
      | .weights x =>
        if keys.length ≠ K then (.ended, .raises .valueError)
        else match blendAt rows t x with
          | .error e => (.ended, .raises e)
          | .ok r => (.paused solver w hist' rest, .item (some (r, List.zip keys (List.ofFn x))))

/-- combination.py:203-266, one call of `next`. The first one does lines 214-256: with a key more than the constructor has
seen `_A` (line 57) raises `IndexError`; with a key less `P_chol_param` (line 260) has another shape than its value, which
raises `ValueError`. Simplification: if then another window would raise as well, this may be the other exception. -/
noncomputable def SolveGen.next (rows : List (Row τ n K)) (returns : Dict τ (Vec n)) (keys : List L) :
    SolveGen τ n K → SolveGen τ n K × NextOut (SolveItem τ L n K)
  | .fresh solver window times =>
    match solvePrepZ { rows := rows, returns := returns } window times with
    | .error e => (.ended, .raises e)
    | .ok (w, ps) =>
      if ps ≠ [] ∧ K < keys.length then (.ended, .raises .indexError)
      else if ps ≠ [] ∧ keys.length < K then (.ended, .raises .valueError)
      else loopNext rows keys solver w.toNat [] ps
  | .paused solver w hist todo => loopNext rows keys solver w hist todo
  | .ended => (.ended, .stop)

/-- The object (its factors, and the data of the caller it refers to) and the generators made so far.
(combination.py:167-175, 203) -/
structure SolveSession (τ L : Type) (n K : ℕ) where
  rows : List (Row τ n K)
  returns : Dict τ (Vec n)
  keys : List L
  gens : List (SolveGen τ n K)

/-- What a caller can do: call `solve`, call `next` on the `i`-th generator, change the frame of returns, the keys of the
dictionary of covariances, or the list `times` it has passed to the `i`-th generator. -/
inductive SolveOp (τ L : Type) (n K : ℕ) where
  | solve (solver : Solver n K) (window : Option Int) (times : Option (List τ))
  | next (i : ℕ)
  | setReturns (returns : Dict τ (Vec n))
  | setKeys (keys : List L)
  | setTimes (i : ℕ) (times : List τ)

/-- The list is copied by the first `next` (combination.py:229, `times = list(times)`), so later changes have no effect. -/
def SolveGen.setTimes (ts : List τ) : SolveGen τ n K → SolveGen τ n K
  | .fresh solver window (some _) => .fresh solver window (some ts)
  | g => g

/-- One operation: the state after it and, for `next`, which generator did what. (combination.py:203-266) -/
noncomputable def SolveSession.step (s : SolveSession τ L n K) : SolveOp τ L n K → SolveSession τ L n K × Option (ℕ × NextOut (SolveItem τ L n K))
  | .solve solver window times => ({ s with gens := s.gens ++ [.fresh solver window times] }, none)
  | .next i =>
    match s.gens[i]? with
    | none => (s, none)
    | some g =>
      let r := g.next s.rows s.returns s.keys
      ({ s with gens := s.gens.set i r.1 }, some (i, r.2))
  | .setReturns returns => ({ s with returns := returns }, none)
  | .setKeys keys => ({ s with keys := keys }, none)
  | .setTimes i ts => ({ s with gens := s.gens.modify i (SolveGen.setTimes ts) }, none)

/-- The state after a list of operations. (combination.py:203-266) -/
noncomputable def SolveSession.run (s : SolveSession τ L n K) : List (SolveOp τ L n K) → SolveSession τ L n K
  | [] => s
  | op :: ops => (s.step op).1.run ops

/-- What the calls of `next` on the `i`-th generator do, in order. (combination.py:203-266) -/
noncomputable def SolveSession.outputs (i : ℕ) (s : SolveSession τ L n K) : List (SolveOp τ L n K) → List (NextOut (SolveItem τ L n K))
  | [] => []
  | op :: ops =>
    (match (s.step op).2 with
      | some (j, o) => if j = i then [o] else []
      | none => []) ++ SolveSession.outputs i (s.step op).1 ops

section iewma
open Scalar

variable {ι α : Type} [Ix ι] [Scalar α]

/-- ewma.py:117-168, what `iterated_ewma` does before its loop: `vola`, `returns_mean`, `adj_mean` and what the generator
`_ewma_cov` will yield (it works on `adj`, which is not the caller's frame). -/
def iewmaPrep (returns : Frame τ ι α) (a : IewmaArgs α) :
    Except Err (Frame τ ι α × Frame τ ι α × Frame τ ι α × Frame τ (ι × ι) α) := do
  let muHalflife1 := (truthy a.muHalflife1).getD a.volaHalflife
  let muHalflife2 := (truthy a.muHalflife2).getD a.covHalflife
  let returns := if a.nanToNum then (if returns.hasNaN then returns.fillna0 else returns) else returns
  let (returns, returnsMean) ← center returns muHalflife1 0 a.mean
  let vola ← volatility returns a.volaHalflife a.minPeriodsVola a.clipAt
  let adj := (clip (Frame.alignWith (· / ·) returns vola) a.clipAt).fillna0
  let (adj, adjMean) ← center adj muHalflife2 0 a.mean
  let covs ← ewmaCov adj a.covHalflife a.minPeriodsCov
  pure (vola, returnsMean, adjMean, covs)

/-- A generator made by `iterated_ewma`: before the first `next`, at its `yield` (with its local variables and what
`_ewma_cov` has still to yield), or ended. (ewma.py:88-183) -/
inductive EwmaGen (τ ι : Type) [Ix ι] (α : Type) where
  | fresh (a : IewmaArgs α)
  | paused (mean : Bool) (vola returnsMean adjMean : Frame τ ι α) (todo : Frame τ (ι × ι) α)
  | ended

/-- ewma.py:164-183 from the top of the loop to the `yield` -/
def ewmaLoopNext (mean : Bool) (vola returnsMean adjMean : Frame τ ι α) :
    Frame τ (ι × ι) α → EwmaGen τ ι α × NextOut (IEWMA τ ι α)
  | [] => (.ended, .stop)
  | p :: todo =>
    match iewmaItem mean vola returnsMean adjMean p.1 p.2 with
    | .error e => (.ended, .raises e)
    | .ok x => (.paused mean vola returnsMean adjMean todo, .item (some x))

/-- One call of `next` while the caller's frame is `returns`. (ewma.py:88-183) -/
def EwmaGen.next (returns : Frame τ ι α) : EwmaGen τ ι α → EwmaGen τ ι α × NextOut (IEWMA τ ι α)
  | .fresh a =>
    match iewmaPrep returns a with
    | .error e => (.ended, .raises e)
    | .ok (vola, returnsMean, adjMean, covs) => ewmaLoopNext a.mean vola returnsMean adjMean covs
  | .paused mean vola returnsMean adjMean todo => ewmaLoopNext mean vola returnsMean adjMean todo
  | .ended => (.ended, .stop)

/-- The caller advances the generator (`none`) or changes the values and rows of its frame (`some`). (ewma.py:88-183) -/
def EwmaGen.outputs (returns : Frame τ ι α) (g : EwmaGen τ ι α) : List (Option (Frame τ ι α)) → List (NextOut (IEWMA τ ι α))
  | [] => []
  | some returns' :: ops => EwmaGen.outputs returns' g ops
  | none :: ops => (g.next returns).2 :: EwmaGen.outputs returns (g.next returns).1 ops

end iewma

end CovPred
