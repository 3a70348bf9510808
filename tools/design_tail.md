## 5. What the proofs revealed about the code

Each is a theorem (in brackets), not just an observation.

Library (`cvx/covariance`)
* `min_periods_cov` smaller than the number of assets makes `from_ewmas` raise `LinAlgError`: the first covariances are
  singular. [C69]
* With `mean=True` the first covariance is always `nan`. [C59] With clipping and a volatility that reaches zero (for
  instance `min_periods_vola <= 0`, `mean=True`) the volatility stays zero for ever. [C13]
* Rows not in increasing order of the index are partly sorted: with a table that starts with the newest row every result looks
  ahead. [C174]
* `nan_to_num=False`: one `nan` poisons the asset for the rest of the history. [C11]
* A missing return in the window aborts `solve` with `LinAlgError`; a missing label with `KeyError`; both before the first
  result, whatever the requested times. [C61, C70]
* `solve(times)` with too little history silently returns fewer results than requested. [C34] One degenerate window
  aborts all of them. [C37]
* The combination depends on the order of the assets. [C62]
* With `mean=True` a change of one percent in one return may change a volatility by any factor; with `mean=False` it changes
  volatilities by at most one percent. [C191]
* With `clip_at > 1` the first returns may influence the volatility for ever, however long the history. [C189]
* `solve` reads the returns at the first `next`, not at the call, and labels the weights with the keys the dictionary of
  covariances has at each `next`: taking an expert out and putting it back mislabels the weights. [C181]
* `regularize_covariance` jumps where the r-th and the next eigenvalue agree: with one factor for two assets a correlation of almost
  zero becomes more than one half or less than minus one half, depending on its sign. [C201]
* EM regularisation with a zero idiosyncratic variance divides by zero. [C46 hypotheses]

Experiments (`experiments/utils`)
* `rolling_window` counts the first return twice as long as it is in the window and keeps a multiple of it afterwards.
  [C49] `log_likelihood_sequential` returns `None`. [C73] A packed row with a single value is broadcast. [C54]
* `nonzero_means.ipynb:749`: `reshape(-1,6)` where a transpose is meant: the columns of `all_Vs` are not the traders they are named after
  (the frame is not used afterwards). [C185]
* `smoothing.ipynb:736-737`: the names `mean_days_between_updates` and `mean_updates_every` are swapped; the plot is right. [C186]
* `nonzero_means.ipynb:911` prints "Average quarterly returns" of yearly returns. [C184]
* `iterated_ewma_vec.iterated_ewma` raises `TypeError` on every call (it treats the generator `ewma` as an array); C182.
* `Trader`: `rhos` given to the constructor raises `AttributeError` [C85]; the default `cons` list is shared by all
  backtests of a session [C81]; `robust_min_risk` uses the volatilities of the first date for all dates [C82] and adds a
  standard deviation to a variance [C87]; `vol_cont` always raises `ValueError` and leaves the flag `diluted` set [C78];
  diluted weights are never refreshed [C77]; the excess metrics divide by the risk of the total, not the excess,
  returns [C79]; the risk-free rate is used by position, not by date [C79]; `max_sharpe` reads an attribute that does not
  exist [C123].
* `portfolio_backtests`: the constructor compares dates with the last predictor only [C107]; `EqWeighted` fails on a
  singular prediction although it does not use it [C107]; a date is dropped if the next row is incomplete [C106]; the row
  of `PRESCIENT` is printed under the name of the last trader, and a second table with another target prints the numbers
  of the first [C112].
* `ccp_regularize`: the fixed step of `_State2` can give negative variances. [C91]
* `low_rank_ewma`: `rank >= n` raises `TypeError` after the first row [C99]; the diagonal part is not in the operator of
  the eigenproblem, contrary to its comment [C98].
* `factor_model`: `memory < 10` wraps around to negative positions; a solver failure stops the run. [C101]
* `return_combination`: `ewm(halflife)` passes the half-life as `com` [C116]; `ewma_return_combination` on the output of
  `ewma_predictors` with the same returns always raises `ValueError` [C119].

Notebooks (`experiments`, `experiments/extensions`)
* `ewma_smoothing` drops the first date. [C136]
* generative mode: `min_periods >= 2` always raises `ValueError`. [C138]
* `PRESCIENT` is scored one row late: the first row of a quarter with the matrix of the quarter before. [C167]
* percent returns with `adjust_factor = 100` and `excess=True` (as the tables of large_universes do with the repository's
  own `get_metrics`): cash earns a hundredth of the risk-free rate, and the risk is not brought back to fractions. [C180]

## 6. Testing the theorems

`seeded/LOG.jsonl` records the wrong programs the theorems were tried on: one edit of a model definition each, in a
scratch copy, with the theorems that failed and the theorems that were tightened because of it. The edits not
caught concern a text no property is about (F01) or do not change what the program does (four).
