import Verif.Model.LinAlg
import Mathlib.Analysis.SpecialFunctions.Log.Basic
import Mathlib.Data.Matrix.Mul

/-
Model of `/repo/cvx/covariance/combination.py`, function by function, in exact real arithmetic.

Not modelled: non-finite entries, printing, cvxpy's numerics (the solver is a parameter).
Index labels form a linear order. `solve` is modelled here for `window` `None` or a natural number and an increasing index;
negative windows and other orders (for which `truncate`, line 250, raises `ValueError`) are in `Verif.Model.SolveCall`.
-/
namespace CovPred
open Matrix

variable {τ : Type} [LinearOrder τ] {n K : ℕ}

/-- A Python dictionary as the list of its items in insertion order (keys are distinct). (combination.py:147-175) -/
abbrev Dict (τ A : Type) := List (τ × A)

/-- `d.keys()`. (combination.py:162, 165) -/
def Dict.keys {A : Type} (d : Dict τ A) : List τ := d.map Prod.fst

/-- A loop over the experts in order; the first exception wins. (combination.py:172, 174, the comprehensions over
the experts) -/
def finM {A : Type} : {K : ℕ} → (Fin K → Except Err A) → Except Err (Fin K → A)
  | 0, _ => .ok Fin.elim0
  | _ + 1, f => do
    let a ← f 0
    let g ← finM fun k => f k.succ
    pure (Fin.cons a g)

/-- combination.py:28-34, `_cholesky_precision` -/
noncomputable def choleskyPrecision (cov : Dict τ (Mat n)) : Except Err (Dict τ (Mat n)) :=
  cov.mapM fun p => do
    let P ← inv? p.2
    let L ← chol? P
    pure (p.1, L)

/-- One row of the frames `__Ls` and `__nus` (combination.py:172, 174): for each expert the Cholesky factor and
`L.T @ mu`. -/
structure Row (τ : Type) (n K : ℕ) where
  time : τ
  L : Fin K → Mat n
  nu : Fin K → Vec n

/-- The object `_CovarianceCombination` (combination.py:146-175). -/
structure Comb (τ : Type) (n K : ℕ) where
  rows : List (Row τ n K)
  returns : Dict τ (Vec n)

/-- combination.py:157-165: the check of the means; missing means are zero. A missing expert key raises `KeyError`,
different time keys `AssertionError`. -/
def checkMeans (sigmas : Fin K → Dict τ (Mat n)) :
    Option (Fin K → Option (Dict τ (Vec n))) → Except Err (Fin K → Dict τ (Vec n))
  | none => .ok fun k => (sigmas k).map fun p => (p.1, 0)
  | some means => finM fun k =>
    match means k with
    | none => .error .keyError
    | some m =>
      if (∀ t ∈ (sigmas k).keys, t ∈ m.keys) ∧ (∀ t ∈ m.keys, t ∈ (sigmas k).keys) then .ok m
      else .error .assertionError

/-- The index of `pd.DataFrame({k: {time: ...}})`: the keys of the first expert, then the keys of the others that
are new. (combination.py:172) -/
def frameIndex (Ls : Fin K → Dict τ (Mat n)) : List τ :=
  (List.finRange K).foldl (fun idx k => idx ++ (Ls k).keys.filter fun t => t ∉ idx) []

/-- combination.py:60-65, `_nu`, for one expert and one time: the cells of both frames. A missing cell of `__Ls` is
the float `nan`, which has no attribute `T`. -/
def frameCell (Ls : Dict τ (Mat n)) (means : Dict τ (Vec n)) (t : τ) : Except Err (Mat n × Vec n) :=
  match Ls.lookup t with
  | none => .error .attributeError
  | some L => match means.lookup t with
    | none => .error .keyError
    | some m => .ok (L, Lᵀ *ᵥ m)

/-- combination.py:172, 174: the row of both frames at time `t`. -/
def frameRow (Ls : Fin K → Dict τ (Mat n)) (means : Fin K → Dict τ (Vec n)) (t : τ) : Except Err (Row τ n K) := do
  let cells ← finM fun k => frameCell (Ls k) (means k) t
  pure { time := t, L := fun k => (cells k).1, nu := fun k => (cells k).2 }

/-- combination.py:147-175 (`from_sigmas`, 142-143, just calls it). Simplification: the cells of `__nus` are visited
row by row instead of column by column, which can only matter for which of two simultaneous exceptions is raised. -/
noncomputable def fromSigmas (sigmas : Fin K → Dict τ (Mat n)) (returns : Dict τ (Vec n))
    (means : Option (Fin K → Option (Dict τ (Vec n))) := none) : Except Err (Comb τ n K) := do
  let means ← checkMeans sigmas means
  let Ls ← finM fun k => choleskyPrecision (sigmas k)
  let rows ← (frameIndex Ls).mapM (frameRow Ls means)
  pure { rows := rows, returns := returns }

/-- combination.py:173, 175, `shift(1).dropna()`: the row labelled `t` holds the values of the row before. -/
def shiftRows (rows : List (Row τ n K)) : List (Row τ n K) :=
  List.zipWith (fun prev cur => { prev with time := cur.time }) rows rows.tail

/-- What `solve` derives from one shifted row: `B` (combination.py:239; its columns are the cells of `Lts_at_r`,
line 219) and the diagonals of the factors (line 247). -/
structure Obs (τ : Type) (n K : ℕ) where
  time : τ
  B : Matrix (Fin n) (Fin K) ℝ
  D : Matrix (Fin n) (Fin K) ℝ

/-- combination.py:37-46 (`_B_t_col`, `_diag_part`) for one row; `returns.loc[time]` may raise `KeyError`. -/
def obsOf (returns : Dict τ (Vec n)) (row : Row τ n K) : Except Err (Obs τ n K) :=
  match returns.lookup row.time with
  | none => .error .keyError
  | some r => .ok
    { time := row.time
      B := Matrix.of fun i k => ((row.L k)ᵀ *ᵥ r - row.nu k) i
      D := Matrix.of fun i k => row.L k i i }

/-- Python slice `l[a:b]` with possibly negative bounds. (combination.py:233, 237) -/
def pySlice {A : Type} (l : List A) (a b : Int) : List A :=
  let norm (x : Int) : ℕ := (if x < 0 then max 0 (l.length + x) else min x l.length).toNat
  (l.take (norm b)).drop (norm a)

/-- combination.py:215-216: `window or len`, capped. -/
def cappedWindow (window : Option ℕ) (N : ℕ) : ℕ :=
  match window with
  | none => N
  | some w => if w = 0 then N else min w N

/-- combination.py:223-237: the list `times`. -/
def solveTimes (index : List τ) (w : ℕ) : Option (List τ) → Except Err (List τ)
  | none => .ok index
  | some [] => .error .indexError
  | some (t :: ts) =>
    if t ∈ index then
      let z : Int := index.idxOf t
      if pySlice index z (z + (t :: ts).length) = t :: ts then
        .ok (pySlice index (z - w + 1) z ++ t :: ts)
      else .error .assertionError
    else .error .keyError

/-- `series.loc[a:b]` for a series with distinct labels: the values from label `a` up to and including label `b`.
(combination.py:242) -/
def labelSlice {A : Type} (s : List (τ × A)) (a b : τ) : List A :=
  ((s.take ((s.map Prod.fst).idxOf b + 1)).drop ((s.map Prod.fst).idxOf a)).map Prod.snd

/-- The values given to `A_param` and `P_chol_param`. The `(n*window) x K` matrix is kept as the list of its `n x K`
blocks. (combination.py:77-78, 259-260) -/
structure Params (n K : ℕ) where
  A : List (Matrix (Fin n) (Fin K) ℝ)
  C : Mat K

/-- combination.py:49-57, `_A` of `Ls_diag.truncate(before, after)` -/
def truncA (obs : List (Obs τ n K)) (before after : τ) : List (Matrix (Fin n) (Fin K) ℝ) :=
  (obs.filter fun o => before ≤ o.time ∧ o.time ≤ after).map Obs.D

/-- combination.py:239: `{time: B}`, with `Lts_at_r.loc[time]`, and line 240, `B.T @ B`. -/
def prodBs (obs : List (Obs τ n K)) (times : List τ) : Except Err (List (τ × Mat K)) :=
  times.mapM fun t =>
    match obs.find? fun o => o.time = t with
    | none => .error .keyError
    | some o => .ok (t, o.Bᵀ * o.B)

/-- combination.py:242, 249-252: the pairs `(times[i-window+1], times[i])` for `i` in `range(window-1, len(times))`,
for `window >= 1`. -/
def windowEnds (w : ℕ) (times : List τ) : List (τ × τ) := List.zip times (times.drop (w - 1))

/-- `np.linalg.cholesky(P[time])` for all windows (combination.py:242-244) -/
noncomputable def pChols (w : ℕ) (times : List τ) (prods : List (τ × Mat K)) : Except Err (List (Mat K)) :=
  (windowEnds w times).mapM fun ab => chol? (labelSlice prods ab.1 ab.2).sum

/-- combination.py:69, `Result` -/
structure Result (τ : Type) (n K : ℕ) where
  time : τ
  mean : Vec n
  covariance : Mat n
  weights : Vec K

/-- What a call of `problem.solve` (combination.py:272, cvxpy) can do. -/
inductive Outcome (K : ℕ) where
  | weights (w : Vec K)
  | solverError
  | raises (e : Err)

/-- The solver: cvxpy with the fixed keyword arguments. It may depend on all parameter values it was given so far
(warm starts), the current ones last. (combination.py:272) -/
abbrev Solver (n K : ℕ) := List (Params n K) → Outcome K

/-- combination.py:274-286, `_solve` after the solver has returned `w`: the unshifted row of `time`, blended. -/
noncomputable def blendAt (rows : List (Row τ n K)) (time : τ) (w : Vec K) : Except Err (Result τ n K) :=
  match rows.find? fun r => r.time = time with
  | none => .error .keyError
  | some r => do
    let L := ∑ k, w k • r.L k
    let nu := ∑ k, w k • r.nu k
    let LTinv ← inv? Lᵀ
    let sigma ← inv? (L * Lᵀ)
    pure { time := time, mean := LTinv *ᵥ nu, covariance := sigma, weights := w }

/-- The items a generator yields (`None` is `none`) and the exception that ends it, if any.
(combination.py:263-266, the `yield`s) -/
structure Trace (A : Type) where
  items : List (Option A)
  err : Option Err

/-- prepend an item. (combination.py:263, 266) -/
def Trace.push {A : Type} (x : Option A) (t : Trace A) : Trace A := ⟨x :: t.items, t.err⟩

/-- combination.py:258-266, the loop of `solve`. Assigning a matrix of the wrong shape to `A_param` raises
`ValueError`. -/
noncomputable def solveLoop (solver : Solver n K) (rows : List (Row τ n K)) (w : ℕ) :
    List (Params n K) → List (τ × Params n K) → Trace (Result τ n K)
  | _, [] => ⟨[], none⟩
  | hist, (t, p) :: rest =>
    if p.A.length ≠ w then ⟨[], some .valueError⟩
    else
      let hist' := hist ++ [p]
      match solver hist' with
      | .raises e => ⟨[], some e⟩
      | .solverError => (solveLoop solver rows w hist' rest).push none
      | .weights x =>
        match blendAt rows t x with
        | .error e => ⟨[], some e⟩
        | .ok r => (solveLoop solver rows w hist' rest).push (some r)

/-- combination.py:214-254: everything before the first item. -/
noncomputable def solvePrep (c : Comb τ n K) (window : Option ℕ) (times : Option (List τ)) :
    Except Err (ℕ × List (τ × Params n K)) := do
  let shifted := shiftRows c.rows
  let w := cappedWindow window shifted.length
  let obs ← shifted.mapM (obsOf c.returns)
  let ts ← solveTimes (obs.map Obs.time) w times
  let prods ← prodBs obs ts
  -- `range(-1, 0)` and `times[-1]` of an empty index
  if w = 0 then throw .indexError
  let cs ← pChols w ts prods
  let ends := windowEnds w ts
  pure (w, List.zipWith (fun ab C => (ab.2, { A := truncA obs ab.1 ab.2, C := C })) ends cs)

/-- combination.py:203-266, `solve`. -/
noncomputable def Comb.solve (c : Comb τ n K) (solver : Solver n K) (window : Option ℕ := none)
    (times : Option (List τ) := none) : Trace (Result τ n K) :=
  match solvePrep c window times with
  | .error e => ⟨[], some e⟩
  | .ok (w, ps) => solveLoop solver c.rows w [] ps

/-- combination.py:84-86, `_objective` at weights with `A_param @ weights > 0`. -/
noncomputable def objective (p : Params n K) (w : Vec K) : ℝ :=
  (p.A.map fun M => ∑ i, Real.log ((M *ᵥ w) i)).sum - 1 / 2 * ((p.Cᵀ *ᵥ w) ⬝ᵥ (p.Cᵀ *ᵥ w))

/-- combination.py:80-82, `_constraints`, and the domain of the logarithm. -/
structure Feasible (p : Params n K) (w : Vec K) : Prop where
  simplex : Simplex w
  domain : ∀ M ∈ p.A, ∀ i, 0 < (M *ᵥ w) i

/-- `w` solves the problem of combination.py:88-89. -/
def IsOptimal (p : Params n K) (w : Vec K) : Prop :=
  Feasible p w ∧ ∀ w', Feasible p w' → objective p w' ≤ objective p w

/-- The contract of an exact solver: whenever it returns weights, they are optimal for the current parameters.
(combination.py:272) -/
def Solver.Exact (s : Solver n K) : Prop := ∀ hist p w, s (hist ++ [p]) = .weights w → IsOptimal p w

/-- The contract of a solver that respects the constraints: the weights it returns are on the simplex.
(combination.py:272) -/
def Solver.Feasible (s : Solver n K) : Prop := ∀ hist p w, s (hist ++ [p]) = .weights w → Simplex w

/-- The contract of a solver that always finds an optimum if there is one. (combination.py:272) -/
def Solver.Complete (s : Solver n K) : Prop :=
  ∀ hist p, (∃ w, IsOptimal p w) → ∃ w, s (hist ++ [p]) = .weights w

end CovPred
