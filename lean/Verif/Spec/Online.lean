import Verif.Spec.Iewma

/-
`iterated_ewma` as an online method: what is kept between two rows of returns, how a row changes it, and the result the row
gives. The past rows themselves are not kept. Of the model only the argument and result types are used here.
-/
namespace CovPred

variable {τ ι : Type} [Ix ι]

/-- what is kept: two counts, two vectors of means, the variances and one matrix -/
@[ext] structure OnlineState (ι : Type) where
  /-- the number of rows so far -/
  rows : ℕ := 0
  /-- the mean of the returns -/
  mu : ι → ℝ := fun _ => 0
  /-- the squared volatilities -/
  var : ι → ℝ := fun _ => 0
  /-- the number of rows that entered the covariance -/
  used : ℕ := 0
  /-- the mean of the volatility-adjusted returns -/
  nu : ι → ℝ := fun _ => 0
  /-- the covariance of the volatility-adjusted returns -/
  cov : ι × ι → ℝ := fun _ => 0

/-- the half-life average with one more observation, the `n`-th (from 0) -/
noncomputable def updated (h : ℝ) (n : ℕ) (old new : ℝ) : ℝ := old + newWeight (decayOf h) n * (new - old)

variable (a : RealArgs) (s : OnlineState ι) (x : ι → ℝ)

/-- the mean with the new row `x` -/
noncomputable def OnlineState.newMu (i : ι) : ℝ := if a.mean then updated a.mu1h s.rows (s.mu i) (x i) else 0

/-- the squared volatility with the new row -/
noncomputable def OnlineState.newVar (i : ι) : ℝ :=
  if s.rows = 0 then (x i - s.newMu a x i) ^ 2
  else updated a.volaHalflife s.rows (s.var i) (clippedQ a.minPeriodsVola a.clip s.rows ((x i - s.newMu a x i) ^ 2) (s.var i))

/-- the new row, centred and divided by the volatility -/
noncomputable def OnlineState.adjusted (i : ι) : ℝ := adjReal a.clip (x i - s.newMu a x i) (Real.sqrt (s.newVar a x i))

/-- the mean of the adjusted returns with the new row -/
noncomputable def OnlineState.newNu (i : ι) : ℝ := if a.mean then updated a.mu2h s.used (s.nu i) (s.adjusted a x i) else 0

/-- their covariance with the new row -/
noncomputable def OnlineState.newCov (p : ι × ι) : ℝ :=
  updated a.covHalflife s.used (s.cov p)
    ((s.adjusted a x p.1 - s.newNu a x p.1) * (s.adjusted a x p.2 - s.newNu a x p.2))

/-- the row enters the covariance -/
def OnlineState.Enters : Prop :=
  a.minPeriodsVola - 1 ≤ (s.rows : Int) ∧ ∃ i, ¬ (Real.sqrt (s.newVar a x i) = 0 ∧ x i - s.newMu a x i = 0)

open Classical in
/-- what is kept after the new row -/
noncomputable def OnlineState.step : OnlineState ι where
  rows := s.rows + 1
  mu := s.newMu a x
  var := s.newVar a x
  used := if s.Enters a x then s.used + 1 else s.used
  nu := if s.Enters a x then s.newNu a x else s.nu
  cov := if s.Enters a x then s.newCov a x else s.cov

open Classical in
/-- the result of the new row, whose label is `t`, if it gives one -/
noncomputable def OnlineState.output (t : τ) : Option (IEWMA τ ι XR) :=
  if s.Enters a x ∧ a.minPeriodsCov - 1 ≤ (s.used : Int) then
    some {
      time := t
      mean := finRow fun i => if a.mean then s.newMu a x i + Real.sqrt (s.newVar a x i) * s.newNu a x i else 0
      covariance := Arr.ofFn fun p =>
        if s.newCov a x (p.1, p.1) = 0 ∨ s.newCov a x (p.2, p.2) = 0 then XR.nan
        else XR.fin (Real.sqrt (s.newVar a x p.1) * Real.sqrt (s.newVar a x p.2) *
          (s.newCov a x p / (Real.sqrt (s.newCov a x (p.1, p.1)) * Real.sqrt (s.newCov a x (p.2, p.2)))))
      volatility := finRow fun i => Real.sqrt (s.newVar a x i) }
  else none

/-- what is kept after the first `t` rows of a table -/
noncomputable def onlineState (a : RealArgs) (x : ℕ → ι → ℝ) : ℕ → OnlineState ι
  | 0 => {}
  | t + 1 => (onlineState a x t).step a (x t)

end CovPred
