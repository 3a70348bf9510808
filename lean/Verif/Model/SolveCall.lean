import Verif.Model.FromEwmas

/-
Model of `solve`, `/repo/cvx/covariance/combination.py:203-266`, for every integer `window` and every order of the index,
with Python's indexing written out. (`Verif.Model.Combination` has the simpler form for natural numbers and an increasing
index; C133 and C134 relate the two.)
-/
namespace CovPred

variable {τ : Type} [LinearOrder τ] {n K : ℕ}

/-- `l[i]`: negative indices count from the end; `IndexError`. (combination.py:242, 250) -/
def pyIndex {A : Type} (l : List A) (i : Int) : Except Err A :=
  let j := if i < 0 then i + l.length else i
  if j < 0 then .error .indexError
  else match l[j.toNat]? with
    | some a => .ok a
    | none => .error .indexError

/-- `range(a, b)`. (combination.py:242, 251) -/
def intRange (a b : Int) : List Int := (List.range (b - a).toNat).map fun k : ℕ => a + k

/-- combination.py:215-216: `window or len`, capped (which does nothing to a negative window). -/
def effWindowZ (window : Option Int) (N : ℕ) : Int :=
  min (match window with
    | none => (N : Int)
    | some w => if w = 0 then (N : Int) else w) N

/-- combination.py:223-237: the list `times`. -/
def solveTimesZ (index : List τ) (w : Int) : Option (List τ) → Except Err (List τ)
  | none => .ok index
  | some [] => .error .indexError
  | some (t :: ts) =>
    if t ∈ index then
      let z : Int := index.idxOf t
      if pySlice index z (z + (t :: ts).length) = t :: ts then
        .ok (pySlice index (z - w + 1) z ++ t :: ts)
      else .error .assertionError
    else .error .keyError

/-- The pairs `(times[i-window+1], times[i])` for `i` in `range(window-1, len(times))`. (combination.py:242, 249-252) -/
def windowEndsZ (w : Int) (times : List τ) : Except Err (List (τ × τ)) :=
  (intRange (w - 1) times.length).mapM fun i => do
    let b ← pyIndex times i
    let a ← pyIndex times (i - w + 1)
    pure (a, b)

/-- `np.linalg.cholesky(sum(...))`, combination.py:242, 244. The sum of an empty series is the integer 0, for which
`np.linalg.cholesky` raises `LinAlgError`. -/
noncomputable def cholSum (ms : List (Mat K)) : Except Err (Mat K) :=
  if ms = [] then .error .linAlgError else chol? ms.sum

/-- `Ls_diag.truncate(before, after)` and `_A`, combination.py:250. pandas raises `ValueError` when the index is neither
increasing nor decreasing, and when `after` is before `before`. -/
def truncateZ (obs : List (Obs τ n K)) (before after : τ) : Except Err (List (Matrix (Fin n) (Fin K) ℝ)) :=
  if ¬ (obs.map Obs.time).Pairwise (· ≤ ·) ∧ ¬ (obs.map Obs.time).Pairwise (· ≥ ·) then .error .valueError
  else if after < before then .error .valueError
  else .ok (truncA obs before after)

/-- One item of `P_chol`. (combination.py:242-244) -/
noncomputable def cholItem (q : τ × List (Mat K)) : Except Err (τ × Mat K) := do
  let C ← cholSum q.2
  pure (q.1, C)

/-- One item of `A`. (combination.py:249-252) -/
def truncItem (obs : List (Obs τ n K)) (ab : τ × τ) : Except Err (τ × List (Matrix (Fin n) (Fin K) ℝ)) := do
  let A ← truncateZ obs ab.1 ab.2
  pure (ab.2, A)

/-- `P_chol[time]`. (combination.py:260) -/
def pCholOf (cs : List (τ × Mat K)) (q : τ × List (Matrix (Fin n) (Fin K) ℝ)) : Except Err (τ × Params n K) :=
  match cs.lookup q.1 with
  | none => .error .keyError
  | some C => .ok (q.1, { A := q.2, C := C })

/-- combination.py:214-254: everything before the first item. The comprehension of line 249 evaluates the same indices as
the one of line 242. -/
noncomputable def solvePrepZ (c : Comb τ n K) (window : Option Int) (times : Option (List τ)) :
    Except Err (Int × List (τ × Params n K)) := do
  let shifted := shiftRows c.rows
  let w := effWindowZ window shifted.length
  let obs ← shifted.mapM (obsOf c.returns)
  let ts ← solveTimesZ (obs.map Obs.time) w times
  let prods ← prodBs obs ts
  let ends ← windowEndsZ w ts
  let cs ← (dictOf (ends.map fun ab => (ab.2, labelSlice prods ab.1 ab.2))).mapM cholItem
  let As ← ends.mapM (truncItem obs)
  let ps ← (dictOf As).mapM (pCholOf cs)
  pure (w, ps)

/-- combination.py:203-266, `solve(window, times)` for an integer `window`. -/
noncomputable def Comb.solveCall (c : Comb τ n K) (solver : Solver n K) (window : Option Int := none)
    (times : Option (List τ) := none) : Trace (Result τ n K) :=
  match solvePrepZ c window times with
  | .error e => ⟨[], some e⟩
  | .ok (w, ps) => solveLoop solver c.rows w.toNat [] ps

end CovPred
