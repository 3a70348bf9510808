import Verif.Spec.Ewma
import Verif.Model.Ewma

/-
What `iterated_ewma` is supposed to compute, written with real numbers and closed-form averages.
Only the argument and result types of the model are used here, none of its functions.
-/
namespace CovPred

/-- the real number stored in an entry (0 for special values) -/
def XR.toReal : XR → ℝ
  | .fin r => r
  | _ => 0

variable {τ ι : Type} [Ix ι]

/-- `f` is a frame with `T` rows labelled `tm 0, ..., tm (T-1)` whose entries are the real numbers `x t i`;
if `nanToNum` it may also contain `nan` entries, which count as 0. -/
def Represents (f : Frame τ ι XR) (nanToNum : Bool) (T : ℕ) (tm : ℕ → τ) (x : ℕ → ι → ℝ) : Prop :=
  ∃ R : ℕ → Arr ι XR, f = (List.range T).map (fun t => (tm t, R t)) ∧
    ∀ t < T, ∀ i, R t i = XR.fin (x t i) ∨ (nanToNum = true ∧ R t i = XR.nan ∧ x t i = 0)

/-- The arguments of `iterated_ewma` other than the returns, when they are ordinary numbers (ewma.py:88-99). -/
structure RealArgs where
  volaHalflife : ℝ
  covHalflife : ℝ
  minPeriodsVola : Int := 20
  minPeriodsCov : Int := 20
  mean : Bool := false
  muHalflife1 : Option ℝ := none
  muHalflife2 : Option ℝ := none
  clipAt : Option ℝ := none
  nanToNum : Bool := true

/-- the arguments as the code sees them -/
noncomputable def RealArgs.toArgs (a : RealArgs) : IewmaArgs XR where
  volaHalflife := XR.fin a.volaHalflife
  covHalflife := XR.fin a.covHalflife
  minPeriodsVola := a.minPeriodsVola
  minPeriodsCov := a.minPeriodsCov
  mean := a.mean
  muHalflife1 := a.muHalflife1.map XR.fin
  muHalflife2 := a.muHalflife2.map XR.fin
  clipAt := a.clipAt.map XR.fin
  nanToNum := a.nanToNum

/-- Half-lives are positive; the optional ones may also be 0, which Python treats as absent.  `clip_at` may be
any number. -/
structure RealArgs.Valid (a : RealArgs) : Prop where
  vola : 0 < a.volaHalflife
  cov : 0 < a.covHalflife
  mu1 : ∀ h ∈ a.muHalflife1, 0 ≤ h
  mu2 : ∀ h ∈ a.muHalflife2, 0 ≤ h

open Classical in
/-- an optional parameter with its default; 0 means absent -/
noncomputable def orElse (o : Option ℝ) (d : ℝ) : ℝ :=
  match o with
  | some h => if h = 0 then d else h
  | none => d

open Classical in
/-- the winsorisation level in force; 0 means none -/
noncomputable def RealArgs.clip (a : RealArgs) : Option ℝ :=
  match a.clipAt with
  | some c => if c = 0 then none else some c
  | none => none

/-- half-life of the mean of the returns -/
noncomputable def RealArgs.mu1h (a : RealArgs) : ℝ := orElse a.muHalflife1 a.volaHalflife
/-- half-life of the mean of the volatility-adjusted returns -/
noncomputable def RealArgs.mu2h (a : RealArgs) : ℝ := orElse a.muHalflife2 a.covHalflife

/-- What enters the variance update at row `n`: the squared return `q`, clipped at `clip² V` from row
`min_periods + 1` on, where `V` is the previous squared volatility. -/
noncomputable def clippedQ (mv : Int) (clip : Option ℝ) (n : ℕ) (q V : ℝ) : ℝ :=
  match clip with
  | some c => if mv + 1 ≤ (n : Int) then min q (c ^ 2 * V) else q
  | none => q

/-- The winsorised variance recursion: the newest (clipped) squared return gets the weight it has in the
half-life average with per-row decay `b`, namely `(1-b)/(1-b^(n+1))`. -/
noncomputable def varSeq (b : ℝ) (mv : Int) (clip : Option ℝ) (q : ℕ → ℝ) : ℕ → ℝ
  | 0 => q 0
  | n + 1 => varSeq b mv clip q n +
      (1 - b) * (clippedQ mv clip (n + 1) (q (n + 1)) (varSeq b mv clip q n) - varSeq b mv clip q n)
        / (1 - b ^ (n + 1 + 1))

/-- the weight of the newest observation -/
noncomputable def newWeight (b : ℝ) (n : ℕ) : ℝ := (1 - b) / (1 - b ^ (n + 1))

/-- the decay per row of a half-life -/
noncomputable def decayOf (h : ℝ) : ℝ := (2 : ℝ) ^ (-1 / h)

/-- the running mean used for centring -/
noncomputable def muOf (mean : Bool) (h : ℝ) (x : ℕ → ι → ℝ) (t : ℕ) (i : ι) : ℝ :=
  if mean then halflifeAverage h (fun k => x k i) t else 0

/-- centred returns -/
noncomputable def cRet (a : RealArgs) (x : ℕ → ι → ℝ) (t : ℕ) (i : ι) : ℝ := x t i - muOf a.mean a.mu1h x t i

/-- squared volatility -/
noncomputable def volSq (a : RealArgs) (x : ℕ → ι → ℝ) (t : ℕ) (i : ι) : ℝ :=
  varSeq (decayOf a.volaHalflife) a.minPeriodsVola a.clip (fun k => cRet a x k i ^ 2) t

/-- volatility -/
noncomputable def vol (a : RealArgs) (x : ℕ → ι → ℝ) (t : ℕ) (i : ι) : ℝ := Real.sqrt (volSq a x t i)

open Classical in
/-- The rows that enter the covariance estimation: those from `min_periods_vola - 1` on in which some asset has
a non-zero volatility or centred return. -/
noncomputable def live (a : RealArgs) (T : ℕ) (x : ℕ → ι → ℝ) : List ℕ :=
  (List.range T).filter fun t =>
    decide (a.minPeriodsVola - 1 ≤ (t : Int) ∧ ∃ i, ¬ (vol a x t i = 0 ∧ cRet a x t i = 0))

open Classical in
/-- The volatility-adjusted (and clipped) return.  `0/0` counts as 0; with clipping `x/0` is `±clip`; without
clipping `x/0` with `x ≠ 0` does not occur. -/
noncomputable def adjReal (clip : Option ℝ) (x s : ℝ) : ℝ :=
  match clip with
  | none => x / s
  | some c => if s = 0 then (if 0 < x then |c| else if x < 0 then -|c| else 0) else max (-|c|) (min (x / s) |c|)

/-- volatility-adjusted clipped return in the `j`-th row that enters -/
noncomputable def adjAt (a : RealArgs) (T : ℕ) (x : ℕ → ι → ℝ) (j : ℕ) (i : ι) : ℝ :=
  adjReal a.clip (cRet a x ((live a T x).getD j 0) i) (vol a x ((live a T x).getD j 0) i)

/-- the same, centred -/
noncomputable def zAt (a : RealArgs) (T : ℕ) (x : ℕ → ι → ℝ) (j : ℕ) (i : ι) : ℝ :=
  adjAt a T x j i - muOf a.mean a.mu2h (adjAt a T x) j i

/-- their weighted covariance -/
noncomputable def covAt (a : RealArgs) (T : ℕ) (x : ℕ → ι → ℝ) (j : ℕ) (p : ι × ι) : ℝ :=
  halflifeAverage a.covHalflife (fun k => zAt a T x k p.1 * zAt a T x k p.2) j

open Classical in
/-- The predicted covariance: correlation of the adjusted returns times the volatilities; `nan` for an asset
without any non-zero adjusted return. -/
noncomputable def sigmaAt (a : RealArgs) (T : ℕ) (x : ℕ → ι → ℝ) (j : ℕ) (p : ι × ι) : XR :=
  if covAt a T x j (p.1, p.1) = 0 ∨ covAt a T x j (p.2, p.2) = 0 then XR.nan
  else XR.fin (vol a x ((live a T x).getD j 0) p.1 * vol a x ((live a T x).getD j 0) p.2 *
    (covAt a T x j p / (Real.sqrt (covAt a T x j (p.1, p.1)) * Real.sqrt (covAt a T x j (p.2, p.2)))))

/-- the predicted mean -/
noncomputable def meanAt (a : RealArgs) (T : ℕ) (x : ℕ → ι → ℝ) (j : ℕ) (i : ι) : ℝ :=
  if a.mean then
    muOf a.mean a.mu1h x ((live a T x).getD j 0) i +
      vol a x ((live a T x).getD j 0) i * muOf a.mean a.mu2h (adjAt a T x) j i
  else 0

/-- the result for the `j`-th row that enters -/
noncomputable def itemAt (a : RealArgs) (T : ℕ) (tm : ℕ → τ) (x : ℕ → ι → ℝ) (j : ℕ) : IEWMA τ ι XR where
  time := tm ((live a T x).getD j 0)
  mean := finRow (meanAt a T x j)
  covariance := Arr.ofFn (sigmaAt a T x j)
  volatility := finRow (vol a x ((live a T x).getD j 0))

end CovPred
