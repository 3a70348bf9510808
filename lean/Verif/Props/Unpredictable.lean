import Verif.Spec.Unpredictable
import Verif.Props.Backtests3
import Verif.Props.BacktestsExamples

/-
Property C178: backtests with causal predictors on random histories.
-/
set_option linter.unusedSectionVars false
namespace CovPred
open Matrix

variable {τ : Type} [LinearOrder τ] {n : ℕ} {Ω : Type} [Fintype Ω]

theorem SameUpTo.equivalence (X : Ω → ℕ → Vec n) (t : ℕ) : Equivalence (SameUpTo X t) where
  refl := fun _ _ _ => rfl
  symm := fun h u hu => (h u hu).symm
  trans := fun h h' u hu => (h u hu).trans (h' u hu)

open Classical in
/-- if the sum over every class is zero, so is the sum -/
private theorem sum_zero (X : Ω → ℕ → Vec n) (t : ℕ) (f : Ω → ℝ)
    (h : ∀ ω₀, ∑ ω with SameUpTo X t ω₀ ω, f ω = 0) : ∑ ω, f ω = 0 := by
  let st : Setoid Ω := ⟨SameUpTo X t, SameUpTo.equivalence X t⟩
  rw [← Finset.sum_fiberwise (s := Finset.univ) (g := fun ω => (Quotient.mk st ω)) (f := f)]
  refine Finset.sum_eq_zero fun q _ => ?_
  induction q using Quotient.inductionOn with
  | _ ω₀ =>
    rw [← h ω₀]
    refine Finset.sum_congr ?_ fun _ _ => rfl
    ext ω
    simp only [Finset.mem_filter, Finset.mem_univ, true_and]
    exact ⟨fun e => (SameUpTo.equivalence X t).symm (Quotient.exact e), fun e =>
      Quotient.sound ((SameUpTo.equivalence X t).symm e)⟩

theorem expect_zero {p : Ω → ℝ} {X : Ω → ℕ → Vec n} {t : ℕ} (hu : Unpredictable p X t) {w : Ω → Vec n} (hw : KnownAt X t w) :
    expect p (fun ω => w ω ⬝ᵥ X ω (t + 1)) = 0 := by
  classical
  refine sum_zero X t _ fun ω₀ => ?_
  have : ∀ ω ∈ Finset.univ.filter (fun ω => SameUpTo X t ω₀ ω), p ω * (w ω ⬝ᵥ X ω (t + 1))
      = ∑ i, w ω₀ i * (p ω * X ω (t + 1) i) := by
    intro ω hω
    rw [← hw ω₀ ω (Finset.mem_filter.1 hω).2, dotProduct, Finset.mul_sum]
    exact Finset.sum_congr rfl fun i _ => by ring
  rw [Finset.sum_congr rfl this, Finset.sum_comm]
  refine Finset.sum_eq_zero fun i _ => ?_
  rw [← Finset.mul_sum]
  have := hu ω₀ i
  rw [← mul_zero (w ω₀ i), ← this]

private theorem sq_dot' (w x : Vec n) : (w ⬝ᵥ x) ^ 2 = ∑ i, ∑ j, w i * w j * (x i * x j) := by
  rw [sq]
  simp only [dotProduct, Finset.sum_mul, Finset.mul_sum]
  refine Finset.sum_congr rfl fun i _ => Finset.sum_congr rfl fun j _ => by ring

private theorem quad_sum' (A : Mat n) (x : Vec n) : x ⬝ᵥ (A *ᵥ x) = ∑ i, ∑ j, x i * x j * A i j := by
  simp only [dotProduct, Matrix.mulVec, Finset.mul_sum]
  refine Finset.sum_congr rfl fun i _ => Finset.sum_congr rfl fun j _ => by ring

theorem expect_square {p : Ω → ℝ} {X : Ω → ℕ → Vec n} {t : ℕ} {S : Ω → Mat n} (hS : CorrectAt p X t S) (hk : KnownAt X t S)
    {w : Ω → Vec n} (hw : KnownAt X t w) :
    expect p (fun ω => (w ω ⬝ᵥ X ω (t + 1)) ^ 2) = expect p fun ω => w ω ⬝ᵥ (S ω *ᵥ w ω) := by
  classical
  rw [← sub_eq_zero]
  unfold expect
  rw [← Finset.sum_sub_distrib]
  refine sum_zero X t _ fun ω₀ => ?_
  have : ∀ ω ∈ Finset.univ.filter (fun ω => SameUpTo X t ω₀ ω),
      p ω * (w ω ⬝ᵥ X ω (t + 1)) ^ 2 - p ω * (w ω ⬝ᵥ (S ω *ᵥ w ω))
      = ∑ i, ∑ j, w ω₀ i * w ω₀ j * (p ω * (X ω (t + 1) i * X ω (t + 1) j) - p ω * S ω₀ i j) := by
    intro ω hω
    rw [← hw ω₀ ω (Finset.mem_filter.1 hω).2, ← hk ω₀ ω (Finset.mem_filter.1 hω).2, sq_dot', quad_sum', ← mul_sub,
      ← Finset.sum_sub_distrib, Finset.mul_sum]
    refine Finset.sum_congr rfl fun i _ => ?_
    rw [← Finset.sum_sub_distrib, Finset.mul_sum]
    exact Finset.sum_congr rfl fun j _ => by ring
  rw [Finset.sum_congr rfl this, Finset.sum_comm]
  refine Finset.sum_eq_zero fun i _ => ?_
  rw [Finset.sum_comm]
  refine Finset.sum_eq_zero fun j _ => ?_
  rw [← Finset.mul_sum, Finset.sum_sub_distrib, ← Finset.sum_mul]
  have := hS ω₀ i j
  rw [sub_eq_zero.2 this, mul_zero]

/-- The table of complete returns is random, `X ω` being its rows for outcome `ω`; predictors `Fs` (and, if any, `Gs` for the means)
that do not look ahead are applied to it, and the backtest of rows `a` to `b` goes through for every outcome, with the trader
`tr ω` under the given name. -/
structure RunsOn (X : Ω → ℕ → Vec n) (T : ℕ) (tm : ℕ → τ) (a b : ℕ) (Fs : List ((ℕ → NRow n) → Dict τ (Mat n)))
    (Gs : Option (List ((ℕ → NRow n) → Dict τ (Vec n)))) (names : List String) (cvx : Cvx n) (st : Strategy τ n) (name : String)
    (bt : Ω → Backtest τ n) (tr : Ω → DatedTrader τ n) : Prop where
  causal : ∀ F ∈ Fs, CausalPredictor tm F
  causalMeans : ∀ l, Gs = some l → ∀ G ∈ l, CausalPredictor tm G
  data : ∀ ω, Backtests (bt ω) T tm (fun t i => some (X ω t i)) a b
  names : ∀ ω, (bt ω).names = names
  covs : ∀ ω, (bt ω).covPredictors = Fs.map fun F => F fun t i => some (X ω t i)
  means : ∀ ω, (bt ω).meanPredictors = Gs.map (List.map fun G => G fun t i => some (X ω t i))
  run : ∀ ω, ∃ d, (bt ω).run cvx st = .ok d ∧ (name, tr ω) ∈ d

/-- the weights of the assets in the row a strategy computes, and the weight of cash -/
private theorem dayWeights_shape {cvx : Cvx n} {st : Strategy τ n} {d : DayData n} {W : List ℝ} (h : dayWeights cvx st d = .ok W) :
    ∃ (w : Vec n) (c : ℝ), W = if st.ptype = .meanVariance then List.ofFn w ++ [c] else List.ofFn w := by
  cases st with
  | eqWeighted => cases h; exact ⟨_, 0, rfl⟩
  | minRisk cons =>
    simp only [dayWeights, bind_ok_iff] at h
    obtain ⟨w, _, h⟩ := h
    cases h
    exact ⟨w, 0, rfl⟩
  | maxDiverse cons =>
    simp only [dayWeights] at h
    split at h
    · cases h
    · simp only [bind_ok_iff] at h
      obtain ⟨w, _, h⟩ := h
      cases h
      exact ⟨_, 0, rfl⟩
  | riskParity =>
    simp only [dayWeights, bind_ok_iff] at h
    obtain ⟨w, _, h⟩ := h
    cases h
    exact ⟨_, 0, rfl⟩
  | meanVariance cons s r =>
    simp only [dayWeights] at h
    split at h
    · cases h
    · simp only [bind_ok_iff] at h
      obtain ⟨w, _, h⟩ := h
      cases h
      exact ⟨w.1, w.2, rfl⟩

/-- the returns of a run, for any strategy -/
private theorem run_returns {bt : Backtest τ n} {T : ℕ} {tm : ℕ → τ} {X : ℕ → Vec n} {a b : ℕ}
    (hb : Backtests bt T tm (fun t i => some (X t i)) a b) {cvx : Cvx n} {st : Strategy τ n}
    {d : Dict String (DatedTrader τ n)} (h : bt.run cvx st = .ok d) {name : String} {tr : DatedTrader τ n} (hm : (name, tr) ∈ d)
    (y : Option ℝ) :
    ∃ (w : ℕ → Vec n) (c : ℕ → ℝ),
      (∀ t, a ≤ t → t < b → HoldsAt tr (tm t) (if st.ptype = .meanVariance then List.ofFn (w t) ++ [c t] else List.ofFn (w t))) ∧
      ∃ s, tr.trader.getTotalReturns false y none = .ok s ∧
        s.rets = (List.range' a (b - a)).map fun t => w t ⬝ᵥ X (t + 1) := by
  have hdays := (C106_days (fun t i => some (X t i)) a b).2.2 fun _ _ _ _ => rfl
  have hdates := (C106_pairing hb h hm).1
  obtain ⟨i, c, mus, _, _, _, _, hpt, _, hret, S, L, mu, rho, W, hws, _, hall⟩ := run_days hb h hm
  rw [hdays] at hret hws hall hdates
  have hsh : ∀ t ∈ List.range' a (b - a), ∃ (w : Vec n) (c : ℝ),
      W t = if st.ptype = .meanVariance then List.ofFn w ++ [c] else List.ofFn w := fun t ht =>
    dayWeights_shape (hall t ht).2.2.2.2.1
  choose! w k hw using hsh
  refine ⟨w, k, fun t h1 h2 => ?_, ?_⟩
  · unfold HoldsAt
    rw [hdates, hws, List.zip_map', List.mem_map]
    have ht : t ∈ List.range' a (b - a) := by rw [List.mem_range'_1]; omega
    exact ⟨t, ht, by rw [hw t ht]⟩
  · have hws' : tr.trader.ws = (List.range' a (b - a)).map fun t =>
        if st.ptype = .meanVariance then List.ofFn (w t) ++ [k t] else List.ofFn (w t) := by
      rw [hws]; exact List.map_congr_left hw
    have hret' : tr.trader.returns = (List.range' a (b - a)).map fun t => X (t + 1) := by rw [hret]; rfl
    by_cases hp : st.ptype = .meanVariance
    · simp only [if_pos hp] at hws'
      have e : ∀ {B : Type} (f : ℕ → B), (List.range' a (b - a)).map f = (List.range (b - a)).map fun u => f (a + u) := by
        intro B f
        rw [List.range'_eq_map_range, List.map_map]
        rfl
      rw [e] at hws' hret'
      refine ⟨_, C79_cash_returns tr.trader (hpt.trans hp) (b - a) (fun u => X (a + u + 1)) (fun u => w (a + u))
        (fun u => k (a + u)) hret' hws' y none [], ?_⟩
      rw [e]
      simp [dotProduct]
    · simp only [if_neg hp] at hws'
      have hnc : NoCash tr.trader.portfolioType := by
        rw [hpt]
        cases st <;> first | exact absurd rfl hp | exact ⟨PType.noConfusion, PType.noConfusion, PType.noConfusion⟩
      exact ⟨_, returns_days tr.trader hnc _ _ w hret' hws' y none, rfl⟩

variable {X : Ω → ℕ → Vec n} {T : ℕ} {tm : ℕ → τ} {a b : ℕ} {Fs : List ((ℕ → NRow n) → Dict τ (Mat n))}
  {Gs : Option (List ((ℕ → NRow n) → Dict τ (Vec n)))} {names : List String} {cvx : Cvx n} {st : Strategy τ n} {name : String}
  {bt : Ω → Backtest τ n} {tr : Ω → DatedTrader τ n}

/-- **C178.** On returns that cannot be predicted no backtest with predictors that do not look ahead makes money on average: for every
strategy, half-life, limit, solver the expected return of every row is zero (cash earning nothing), and so is the expected value of
the mean return of the whole backtest. -/
theorem C178_no_gain (hr : RunsOn X T tm a b Fs Gs names cvx st name bt tr) {p : Ω → ℝ}
    (hu : ∀ t, a ≤ t → t < b → Unpredictable p X t) (y : Option ℝ) :
    ∃ (s : Ω → Trader n) (ret : Ω → ℕ → ℝ),
      (∀ ω, (tr ω).trader.getTotalReturns false y none = .ok (s ω) ∧ (s ω).rets = (List.range' a (b - a)).map (ret ω)) ∧
      (∀ t, a ≤ t → t < b → expect p (fun ω => ret ω t) = 0) ∧ expect p (fun ω => average (s ω).rets) = 0 := by
  choose d hd hm using hr.run
  have hall := fun ω => run_returns (hr.data ω) (hd ω) (hm ω) y
  choose w c hw s hs hrets using hall
  have hk : ∀ t, a ≤ t → t < b → KnownAt X t (fun ω => w ω t) := by
    intro t h1 h2 ω ω' hsame
    have := C110_no_lookahead Fs hr.causal Gs hr.causalMeans (hr.data ω) (hr.data ω') ((hr.names ω).trans (hr.names ω').symm)
      (hr.covs ω) (hr.covs ω') (hr.means ω) (hr.means ω') t (fun u hu => by rw [hsame u hu]) (hd ω) (hd ω') (hm ω) (hm ω')
      le_rfl (hw ω t h1 h2) (hw ω' t h1 h2)
    by_cases hp : st.ptype = .meanVariance
    · rw [if_pos hp, if_pos hp] at this
      exact List.ofFn_injective (List.append_inj_left' this rfl)
    · rw [if_neg hp, if_neg hp] at this
      exact List.ofFn_injective this
  have hz : ∀ t, a ≤ t → t < b → expect p (fun ω => w ω t ⬝ᵥ X ω (t + 1)) = 0 := fun t h1 h2 =>
    expect_zero (hu t h1 h2) (hk t h1 h2)
  refine ⟨s, fun ω t => w ω t ⬝ᵥ X ω (t + 1), fun ω => ⟨hs ω, hrets ω⟩, hz, ?_⟩
  have e : (fun ω => average (s ω).rets)
      = fun ω => (∑ k ∈ Finset.range (b - a), w ω (a + k) ⬝ᵥ X ω (a + k + 1)) / (b - a : ℕ) := by
    funext ω
    unfold average
    rw [hrets ω, List.length_map, List.length_range', List.range'_eq_map_range, List.map_map]
    congr 1
  unfold expect at hz ⊢
  rw [e]
  simp only [← mul_div_assoc, Finset.mul_sum]
  rw [← Finset.sum_div, Finset.sum_comm, Finset.sum_eq_zero, zero_div]
  intro k hk
  have := Finset.mem_range.1 hk
  exact hz (a + k) (by omega) (by omega)

/-- **C178.** With correct predictions (after every row the second moments of the next returns, whatever the history) and an exact
solver, the expected squared return of `MinRisk` is in every row at most that of any other way to choose portfolios within the limits
from the history. -/
theorem C178_min_risk {cons : ExtraCons} (hr : RunsOn X T tm a b Fs Gs names cvx (.minRisk cons) name bt tr) (hcvx : cvx.Exact)
    {p : Ω → ℝ} (hp : ∀ ω, 0 ≤ p ω) {S : ℕ → Ω → Mat n} (hS : ∀ t, a ≤ t → t < b → CorrectAt p X t (S t))
    (hsym : ∀ t ω, (S t ω)ᵀ = S t ω)
    (hpred : ∀ F ∈ Fs, ∀ ω, ∀ t, a ≤ t → t < b → (F fun t i => some (X ω t i)).lookup (tm t) = some (S t ω)) (y : Option ℝ) :
    ∃ (s : Ω → Trader n) (ret : Ω → ℕ → ℝ),
      (∀ ω, (tr ω).trader.getTotalReturns false y none = .ok (s ω) ∧ (s ω).rets = (List.range' a (b - a)).map (ret ω)) ∧
      ∀ t, a ≤ t → t < b → ∀ v : Ω → Vec n, KnownAt X t v → (∀ ω, WithinLimits cons (v ω)) →
        expect p (fun ω => ret ω t ^ 2) ≤ expect p (fun ω => (v ω ⬝ᵥ X ω (t + 1)) ^ 2) := by
  choose d hd hm using hr.run
  have hall := fun ω => C109_min_risk (hr.data ω) hcvx (hd ω) (hm ω) y none
  choose i c w h1 h2 hws hret hopt using hall
  have hdays := fun ω => (C106_days (fun t i => some (X ω t i)) a b).2.2 fun _ _ _ _ => rfl
  choose s hs hrets using hret
  have hdates := fun ω => (C106_pairing (hr.data ω) (hd ω) (hm ω)).1
  have hmem : ∀ t, a ≤ t → t < b → t ∈ List.range' a (b - a) := fun t _ _ => by rw [List.mem_range'_1]; omega
  have hk : ∀ t, a ≤ t → t < b → KnownAt X t (fun ω => w ω t) := by
    intro t ha hb ω ω' hsame
    have hold : ∀ ω, HoldsAt (tr ω) (tm t) (List.ofFn (w ω t)) := fun ω => by
      unfold HoldsAt
      rw [hdates ω, hws ω, hdays ω, List.zip_map', List.mem_map]
      exact ⟨t, hmem t ha hb, rfl⟩
    exact List.ofFn_injective (C110_no_lookahead Fs hr.causal Gs hr.causalMeans (hr.data ω) (hr.data ω')
      ((hr.names ω).trans (hr.names ω').symm) (hr.covs ω) (hr.covs ω') (hr.means ω) (hr.means ω') t
      (fun u hu => by rw [hsame u hu]) (hd ω) (hd ω') (hm ω) (hm ω') le_rfl (hold ω) (hold ω'))
  refine ⟨s, fun ω t => w ω t ⬝ᵥ X ω (t + 1), fun ω => ⟨hs ω, ?_⟩, fun t ha hb v hv hcons => ?_⟩
  · rw [hrets ω, hdays ω]; rfl
  · have hKS : KnownAt X t (S t) := by
      intro ω ω' hsame
      have hF : ∃ F ∈ Fs, True := by
        have := h1 ω
        rw [hr.covs ω, List.getElem?_map] at this
        rcases hF : Fs[i ω]? with _ | F
        · rw [hF] at this; cases this
        · exact ⟨F, List.mem_of_getElem? hF, trivial⟩
      obtain ⟨F, hF, _⟩ := hF
      have h3 := hr.causal F hF (fun t i => some (X ω t i)) (fun t i => some (X ω' t i)) t (fun u hu => by rw [hsame u hu])
      rw [hpred F hF ω t ha hb, hpred F hF ω' t ha hb] at h3
      exact Option.some.inj h3
    rw [expect_square (hS t ha hb) hKS (hk t ha hb), expect_square (hS t ha hb) hKS hv]
    unfold expect
    refine Finset.sum_le_sum fun ω _ => mul_le_mul_of_nonneg_left ?_ (hp ω)
    obtain ⟨S', h3, _, h4⟩ := hopt ω t (by rw [hdays ω]; exact hmem t ha hb)
    have hS' : S' = S t ω := by
      have := h1 ω
      rw [hr.covs ω, List.getElem?_map] at this
      rcases hF : Fs[i ω]? with _ | F
      · rw [hF] at this; cases this
      · rw [hF] at this
        have hc := Option.some.inj this
        rw [← hc, hpred F (List.mem_of_getElem? hF) ω t ha hb] at h3
        exact (Option.some.inj h3).symm
    subst hS'
    have hle := h4 (hsym t ω) (v ω) (hcons ω)
    unfold predictedStd at hle
    have hpd : (S t ω).PosDef := by
      obtain ⟨i', c', mus, g1, _, _, _, _, _, _, S2, L, _, _, _, _, _, hall⟩ := run_days (hr.data ω) (hd ω) (hm ω)
      obtain ⟨g2, g3, _⟩ := hall t (by rw [hdays ω]; exact hmem t ha hb)
      have : S2 t = S t ω := by
        rw [hr.covs ω, List.getElem?_map] at g1
        rcases hF : Fs[i']? with _ | F
        · rw [hF] at g1; cases g1
        · rw [hF] at g1
          have hc := Option.some.inj g1
          rw [← hc, hpred F (List.mem_of_getElem? hF) ω t ha hb] at g2
          exact (Option.some.inj g2).symm
      rw [this] at g3
      exact posDef_of_getLInv g3 (hsym t ω)
    have hnn : 0 ≤ v ω ⬝ᵥ (S t ω *ᵥ v ω) := by
      have := hpd.posSemidef.dotProduct_mulVec_nonneg (v ω)
      simpa using this
    exact (Real.sqrt_le_sqrt_iff hnn).1 hle

/-- **C178.** With correct predictions dilution with cash (no risk-free return) hits the volatility target on average: for every strategy
without cash, the expected squared return of every row is the target squared over 252 (if the portfolio held is never empty). If
moreover the returns cannot be predicted, the expected return is zero. -/
theorem C178_diluted (hr : RunsOn X T tm a b Fs Gs names cvx st name bt tr) (hst : st.ptype ≠ .meanVariance)
    {p : Ω → ℝ} (hp1 : ∑ ω, p ω = 1) {S : ℕ → Ω → Mat n} (hS : ∀ t, a ≤ t → t < b → CorrectAt p X t (S t))
    (hsym : ∀ t ω, (S t ω)ᵀ = S t ω)
    (hpred : ∀ F ∈ Fs, ∀ ω, ∀ t, a ≤ t → t < b → (F fun t i => some (X ω t i)).lookup (tm t) = some (S t ω)) (hab : a < b)
    (x : ℝ) :
    ∃ (s : Ω → Trader n) (w : Ω → ℕ → Vec n) (ret : Ω → ℕ → ℝ),
      (∀ ω, (tr ω).trader.ws = (List.range' a (b - a)).map fun t => List.ofFn (w ω t)) ∧
      (∀ ω, (tr ω).trader.getTotalReturns true (some x) none = .ok (s ω) ∧ (s ω).rets = (List.range' a (b - a)).map (ret ω)) ∧
      ∀ t, a ≤ t → t < b → (∀ ω, w ω t ≠ 0) → expect p (fun ω => ret ω t ^ 2) = x ^ 2 / 252 ∧
        (Unpredictable p X t → expect p (fun ω => ret ω t) = 0) := by
  choose d hd hm using hr.run
  have hdays := fun ω => (C106_days (fun t i => some (X ω t i)) a b).2.2 fun _ _ _ _ => rfl
  have hdates := fun ω => (C106_pairing (hr.data ω) (hd ω) (hm ω)).1
  have hmem : ∀ t, a ≤ t → t < b → t ∈ List.range' a (b - a) := fun t _ _ => by rw [List.mem_range'_1]; omega
  have hall := fun ω => run_days (hr.data ω) (hd ω) (hm ω)
  choose i c mus g1 g2 g3 g4 g5 g6 g7 S2 L mu rho W g8 g9 g10 using hall
  have hS2 : ∀ ω t, a ≤ t → t < b → S2 ω t = S t ω := by
    intro ω t ha hb
    have h3 := (g10 ω t (by rw [hdays ω]; exact hmem t ha hb)).1
    have h1 := g1 ω
    rw [hr.covs ω, List.getElem?_map] at h1
    rcases hF : Fs[i ω]? with _ | F
    · rw [hF] at h1; cases h1
    · rw [hF] at h1
      have hc := Option.some.inj h1
      rw [← hc, hpred F (List.mem_of_getElem? hF) ω t ha hb] at h3
      exact (Option.some.inj h3).symm
  have hpd : ∀ ω t, a ≤ t → t < b → (S t ω).PosDef := by
    intro ω t ha hb
    have := (g10 ω t (by rw [hdays ω]; exact hmem t ha hb)).2.1
    rw [hS2 ω t ha hb] at this
    exact posDef_of_getLInv this (hsym t ω)
  have hKS : ∀ t, a ≤ t → t < b → KnownAt X t (S t) := by
    intro t ha hb ω ω' hsame
    have hF : ∃ F ∈ Fs, True := by
      have := g1 ω
      rw [hr.covs ω, List.getElem?_map] at this
      rcases hF : Fs[i ω]? with _ | F
      · rw [hF] at this; cases this
      · exact ⟨F, List.mem_of_getElem? hF, trivial⟩
    obtain ⟨F, hF, _⟩ := hF
    have h3 := hr.causal F hF (fun t i => some (X ω t i)) (fun t i => some (X ω' t i)) t (fun u hu => by rw [hsame u hu])
    rw [hpred F hF ω t ha hb, hpred F hF ω' t ha hb] at h3
    exact Option.some.inj h3
  have hsh : ∀ ω, ∀ t ∈ List.range' a (b - a), ∃ w : Vec n, W ω t = List.ofFn w := by
    intro ω t ht
    obtain ⟨w, k, hw⟩ := dayWeights_shape (g10 ω t (by rw [hdays ω]; exact ht)).2.2.2.2.1
    rw [if_neg hst] at hw
    exact ⟨w, hw⟩
  choose! w hw using hsh
  have hws : ∀ ω, (tr ω).trader.ws = (List.range' a (b - a)).map fun t => List.ofFn (w ω t) := fun ω => by
    rw [g8 ω, hdays ω]; exact List.map_congr_left (hw ω)
  have hk : ∀ t, a ≤ t → t < b → KnownAt X t (fun ω => w ω t) := by
    intro t ha hb ω ω' hsame
    have hold : ∀ ω, HoldsAt (tr ω) (tm t) (List.ofFn (w ω t)) := fun ω => by
      unfold HoldsAt
      rw [hdates ω, hws ω, hdays ω, List.zip_map', List.mem_map]
      exact ⟨t, hmem t ha hb, rfl⟩
    exact List.ofFn_injective (C110_no_lookahead Fs hr.causal Gs hr.causalMeans (hr.data ω) (hr.data ω')
      ((hr.names ω).trans (hr.names ω').symm) (hr.covs ω) (hr.covs ω') (hr.means ω) (hr.means ω') t
      (fun u hu => by rw [hsame u hu]) (hd ω) (hd ω') (hm ω) (hm ω') le_rfl (hold ω) (hold ω'))
  have e : ∀ {B : Type} (f : ℕ → B), (List.range' a (b - a)).map f = (List.range (b - a)).map fun u => f (a + u) := by
    intro B f
    rw [List.range'_eq_map_range, List.map_map]
    rfl
  have hdil := fun ω => C53_diluted_returns (tr ω).trader (C106_fresh (hr.data ω) (hd ω) (hm ω)).1 (b - a) (by omega)
    (fun u => X ω (a + u + 1)) (fun u => w ω (a + u)) (fun u => S (a + u) ω)
    (by rw [g7 ω, hdays ω, e]; rfl)
    (by
      rw [g9 ω, hdays ω, e]
      exact List.map_congr_left fun u hu => hS2 ω (a + u) (by omega) (by have := List.mem_range.1 hu; omega))
    (by rw [hws ω, e]) x none []
  choose s hs hrets using hdil
  refine ⟨s, w, fun ω t => x / (Real.sqrt 252 * predictedStd (S t ω) (w ω t)) * (w ω t ⬝ᵥ X ω (t + 1)), hws,
    fun ω => ⟨hs ω, ?_⟩, fun t ha hb hne => ⟨?_, fun hun => ?_⟩⟩
  · rw [hrets ω, e]
    simp
  · have hKv : KnownAt X t fun ω => (x / (Real.sqrt 252 * predictedStd (S t ω) (w ω t))) • w ω t := by
      intro ω ω' hsame
      have h1 := hk t ha hb ω ω' hsame
      have h2 := hKS t ha hb ω ω' hsame
      dsimp only at h1 ⊢
      rw [h1, h2]
    have h3 := expect_square (hS t ha hb) (hKS t ha hb) hKv
    simp only [smul_dotProduct, smul_eq_mul] at h3
    rw [h3]
    have : ∀ ω, x / (Real.sqrt 252 * predictedStd (S t ω) (w ω t)) *
        (w ω t ⬝ᵥ (S t ω *ᵥ ((x / (Real.sqrt 252 * predictedStd (S t ω) (w ω t))) • w ω t))) = x ^ 2 / 252 := by
      intro ω
      have hpos : 0 < w ω t ⬝ᵥ (S t ω *ᵥ w ω t) := by
        have := (hpd ω t ha hb).dotProduct_mulVec_pos (hne ω)
        simpa using this
      rw [Matrix.mulVec_smul, dotProduct_smul, smul_eq_mul, ← mul_assoc]
      unfold predictedStd
      rw [← sq, div_pow, mul_pow, Real.sq_sqrt (by norm_num), Real.sq_sqrt hpos.le]
      field_simp
    simp only [this]
    unfold expect
    rw [← Finset.sum_mul, hp1, one_mul]
  · have hKv : KnownAt X t fun ω => (x / (Real.sqrt 252 * predictedStd (S t ω) (w ω t))) • w ω t := by
      intro ω ω' hsame
      have h1 := hk t ha hb ω ω' hsame
      have h2 := hKS t ha hb ω ω' hsame
      dsimp only at h1 ⊢
      rw [h1, h2]
    have h3 := expect_zero hun hKv
    simpa only [smul_dotProduct, smul_eq_mul] using h3

end CovPred

/-
Four rows of independent returns of +1 or -1 for two assets, all 256 outcomes equally likely: unpredictable, with second moments 1,
which is what the predictor of `btExample` says. So the hypotheses of the three theorems hold for all the strategies in `btStrategies`.
-/
namespace CovPred.UnpredictableEx
open Matrix

abbrev Outcome := Fin 4 × Fin 2 → Bool

def sgn (b : Bool) : ℝ := if b then 1 else -1

def X (ω : Outcome) (t : ℕ) : Vec 2 := fun i => if h : t < 4 then sgn (ω (⟨t, h⟩, i)) else 0

noncomputable def p (_ω : Outcome) : ℝ := 1 / 256

private def flip (t : ℕ) (h : t < 4) (i : Fin 2) (ω : Outcome) : Outcome := Function.update ω (⟨t, h⟩, i) (!ω (⟨t, h⟩, i))

private theorem flip_flip (t : ℕ) (h : t < 4) (i : Fin 2) (ω : Outcome) : flip t h i (flip t h i ω) = ω := by
  unfold flip
  funext q
  by_cases hq : q = (⟨t, h⟩, i)
  · subst hq; simp
  · simp [Function.update_of_ne hq]

private theorem X_flip_ne {t u : ℕ} (h : t < 4) {i j : Fin 2} (ω : Outcome) (hne : u ≠ t ∨ j ≠ i) :
    X (flip t h i ω) u j = X ω u j := by
  unfold X flip
  by_cases hu : u < 4
  · rw [dif_pos hu, dif_pos hu, Function.update_of_ne]
    intro e
    simp only [Prod.mk.injEq, Fin.mk.injEq] at e
    rcases hne with h1 | h1
    · exact h1 e.1
    · exact h1 e.2
  · rw [dif_neg hu, dif_neg hu]

private theorem X_flip (t : ℕ) (h : t < 4) (i : Fin 2) (ω : Outcome) : X (flip t h i ω) t i = - X ω t i := by
  unfold X flip
  rw [dif_pos h, dif_pos h, Function.update_self]
  cases ω (⟨t, h⟩, i) <;> simp [sgn]

private theorem same_flip {t : ℕ} (h : t + 1 < 4) (i : Fin 2) {ω₀ ω : Outcome} (hs : SameUpTo X t ω₀ ω) :
    SameUpTo X t ω₀ (flip (t + 1) h i ω) := fun u hu => by
  rw [hs u hu]
  funext j
  exact (X_flip_ne h ω (Or.inl (by omega))).symm

private theorem X_sq {t : ℕ} (h : t < 4) (i : Fin 2) (ω : Outcome) : X ω t i * X ω t i = 1 := by
  unfold X
  rw [dif_pos h]
  cases ω (⟨t, h⟩, i) <;> norm_num [sgn]

private theorem X_ne {t : ℕ} (h : t < 4) (i : Fin 2) (ω : Outcome) : X ω t i ≠ 0 := fun e => by
  have := X_sq h i ω
  rw [e] at this
  norm_num at this

theorem unpredictable {t : ℕ} (h : t < 3) : Unpredictable p X t := by
  classical
  intro ω₀ i
  refine Finset.sum_involution (fun ω _ => flip (t + 1) (by omega) i ω) ?_ ?_ ?_ ?_
  · intro ω _
    rw [X_flip]
    unfold p
    ring
  · intro ω _ _ e
    have := X_flip (t + 1) (by omega) i ω
    rw [e] at this
    exact X_ne (t := t + 1) (by omega) i ω (by linarith)
  · intro ω hω
    rw [Finset.mem_filter] at hω ⊢
    exact ⟨Finset.mem_univ _, same_flip (by omega) i hω.2⟩
  · intro ω _
    exact flip_flip _ _ _ _

theorem correct {t : ℕ} (h : t < 3) : CorrectAt p X t fun _ => 1 := by
  classical
  intro ω₀ i j
  show _ = _ * (1 : Mat 2) i j
  by_cases hij : i = j
  · subst hij
    rw [Matrix.one_apply_eq, mul_one]
    refine Finset.sum_congr rfl fun ω _ => ?_
    rw [X_sq (by omega), mul_one]
  · rw [Matrix.one_apply_ne hij, mul_zero]
    refine Finset.sum_involution (fun ω _ => flip (t + 1) (by omega) i ω) ?_ ?_ ?_ ?_
    · intro ω _
      rw [X_flip, X_flip_ne _ ω (Or.inr (Ne.symm hij))]
      unfold p
      ring
    · intro ω _ _ e
      have := X_flip (t + 1) (by omega) i ω
      rw [e] at this
      exact X_ne (t := t + 1) (by omega) i ω (by linarith)
    · intro ω hω
      rw [Finset.mem_filter] at hω ⊢
      exact ⟨Finset.mem_univ _, same_flip (by omega) i hω.2⟩
    · intro ω _
      exact flip_flip _ _ _ _

theorem runs (st : Strategy ℕ 2) (hst : st ∈ btStrategies) : ∃ tr : Outcome → DatedTrader ℕ 2,
    RunsOn X 4 id 0 3 [fun _ => [(0, 1), (1, 1), (2, 1), (3, 1)]] (some [fun _ => [(0, 0), (1, 0), (2, 0), (3, 0)]]) ["A"]
      (exactCvx 2) st "A" (fun ω => btExample fun t i => some (X ω t i)) tr := by
  have hall := fun ω => btExample_run (X ω) st hst
  choose hB tr hrun using hall
  refine ⟨tr, ?_, ?_, hB, fun _ => rfl, fun _ => rfl, fun _ => rfl, fun ω => ⟨_, hrun ω, by simp⟩⟩
  · intro F hF
    rw [List.mem_singleton] at hF
    subst hF
    intro _ _ _ _
    rfl
  · intro l hl G hG
    cases hl
    rw [List.mem_singleton] at hG
    subst hG
    intro _ _ _ _
    rfl

example : (∀ ω, 0 ≤ p ω) ∧ ∑ ω, p ω = 1 ∧ (∀ t, t < 3 → Unpredictable p X t ∧ CorrectAt p X t fun _ => 1) ∧
    (∀ ω t, t < 3 → ((fun _ => [(0, 1), (1, 1), (2, 1), (3, 1)] : (ℕ → NRow 2) → Dict ℕ (Mat 2)) fun t i => some (X ω t i)).lookup t
      = some 1) := by
  refine ⟨fun _ => by norm_num [p], ?_, fun t ht => ⟨unpredictable ht, correct ht⟩, fun ω t ht => ?_⟩
  · unfold p
    rw [Finset.sum_const, Finset.card_univ]
    norm_num [Fintype.card_prod]
  · interval_cases t <;> rfl

end CovPred.UnpredictableEx
