import Verif.Props.CmMean

/-
Property C171: CM-IEWMA with means in shifted returns and other units; a concrete run for C170 and C171.
-/
set_option linter.unusedSectionVars false
namespace CovPred
open Matrix XR

variable {τ : Type} [LinearOrder τ] {n K : ℕ}

section
variable {solver : Solver n K} {covPairs meanPairs : List (ℝ × ℝ)} {p q : Fin K → ℝ × ℝ} {mv mc f window T : ℕ} {tm : ℕ → τ}
  {x : ℕ → Vec n}

/-! ### A constant added to the returns -/

theorem rowMeanIewma_shift (p q : ℝ × ℝ) (v : Vec n) (s : ℕ) :
    rowMeanIewma mv mc p q f (fun t i => x t i + v i) s
      = { rowMeanIewma mv mc p q f x s with
          mean := finRow fun i => meanAt (meanArgs mv mc p q) (s + 1) x (s - f) i + v i } := by
  set a := meanArgs mv mc p q with ha
  have hm : a.mean = true := rfl
  have hmu : ∀ t i, muOf a.mean a.mu1h (fun t i => x t i + v i) t i = muOf a.mean a.mu1h x t i + v i := fun t i => by
    simp only [muOf, hm, if_true]
    rw [halflifeAverage_shift (fun k => x k i) (v i) t]
  have hc : cRet a (fun t i => x t i + v i) = cRet a x := by
    funext t i
    simp only [cRet, hmu]
    ring
  have hvol : vol a (fun t i => x t i + v i) = vol a x := by
    funext t i; simp only [vol, volSq, hc]
  have hlive : live a (s + 1) (fun t i => x t i + v i) = live a (s + 1) x := by
    unfold live
    rw [hc, hvol]
  have hadj : adjAt a (s + 1) (fun t i => x t i + v i) = adjAt a (s + 1) x := by
    funext j i; simp only [adjAt, hc, hvol, hlive]
  have hz : zAt a (s + 1) (fun t i => x t i + v i) = zAt a (s + 1) x := by
    funext j i; simp only [zAt, hadj]
  have hcov : covAt a (s + 1) (fun t i => x t i + v i) = covAt a (s + 1) x := by
    funext j p; simp only [covAt, hz]
  have hsig : sigmaAt a (s + 1) (fun t i => x t i + v i) = sigmaAt a (s + 1) x := by
    funext j p; simp only [sigmaAt, hcov, hvol, hlive]
  have hmean : meanAt a (s + 1) (fun t i => x t i + v i) (s - f) = fun i => meanAt a (s + 1) x (s - f) i + v i := by
    funext i
    simp only [meanAt, hm, if_true]
    rw [hlive, hadj, hvol, ← hm, hmu]
    ring
  unfold rowMeanIewma itemAt
  rw [hmean, hsig, hlive, hvol]

theorem expertSigma_shift (lamda : ℝ) (v : Vec n) (s : ℕ) :
    expertSigma p q mv mc f lamda (fun t i => x t i + v i) s = expertSigma p q mv mc f lamda x s := by
  funext k
  unfold expertSigma
  rw [rowMeanIewma_shift]
  rfl

theorem expertMean_shift (v : Vec n) (s : ℕ) (k : Fin K) :
    expertMean p q mv mc f (fun t i => x t i + v i) s k = expertMean p q mv mc f x s k + v := by
  funext i
  unfold expertMean
  rw [rowMeanIewma_shift, Pi.add_apply]
  simp only [finRow, Arr.get_ofFn, rowMeanIewma, itemAt]
  rfl

theorem FirstRow.shift (h : FirstRow mv x f) (v : Vec n) : FirstRow mv (fun t i => x t i + v i) f := by
  have e : ∀ s, (fun i => x s i + v i) ≠ (fun i => x 0 i + v i) ↔ x s ≠ x 0 := fun s => by
    rw [not_iff_not]
    constructor
    · intro h; funext i; have := congrFun h i; simpa using this
    · intro h; rw [h]
  exact ⟨h.enough, by obtain ⟨s, h1, h2⟩ := h.moved; exact ⟨s, h1, (e s).mpr h2⟩,
    fun g h1 ⟨s, h2, h3⟩ => h.least g h1 ⟨s, h2, (e s).mp h3⟩⟩

theorem blendMean_shift {S : Fin K → Mat n} (hS : ∀ k, (S k).PosDef) {w : Vec K} (hw : Simplex w) (mu : Fin K → Vec n)
    (v : Vec n) : blendMean S (fun k => mu k + v) w = blendMean S mu w + v := by
  unfold blendMean
  have hdet := blendFactor_det hS hw
  have e : ∑ k, w k • ((precFactor (S k))ᵀ *ᵥ (mu k + v))
      = ∑ k, w k • ((precFactor (S k))ᵀ *ᵥ mu k) + (blendFactor S w)ᵀ *ᵥ v := by
    simp only [Matrix.mulVec_add, smul_add, Finset.sum_add_distrib]
    congr 1
    unfold blendFactor
    rw [Matrix.transpose_sum, Matrix.sum_mulVec]
    apply Finset.sum_congr rfl
    intro k _
    rw [Matrix.transpose_smul, Matrix.smul_mulVec]
  rw [e, Matrix.mulVec_add, Matrix.mulVec_mulVec, Matrix.nonsing_inv_mul _ (by
    rw [Matrix.det_transpose]; exact isUnit_iff_ne_zero.mpr hdet), Matrix.one_mulVec]

theorem MeanSetup.shift (h : MeanSetup solver covPairs meanPairs p q mv mc f window T tm x) (v : Vec n) :
    MeanSetup solver covPairs meanPairs p q mv mc f window T tm fun t i => x t i + v i :=
  { h with first := h.first.shift v }

/-- the run on panels that differ by `v` -/
theorem run_shift {P P' : Panel τ n K} {solver : Solver n K} {W : ℕ} (v : Vec n) (hfe : solver.Feasible) (hlen : P'.len = P.len)
    (htime : P'.time = P.time) (hcov : P'.cov = P.cov) (hmean : ∀ t k, P'.mean t k = P.mean t k + v)
    (hret : ∀ s, P'.ret s = P.ret s + v) (h : P.Completes solver W) :
    P'.Completes solver W ∧ runTables P' solver W
      = { runTables P solver W with means := (runTables P solver W).means.map fun r => (r.1, r.2 + v) } := by
  have hsc : ∀ s, P'.scores s = P.scores s := fun s => by
    unfold Panel.scores
    rw [hcov]
    ext i k
    simp only [Matrix.of_apply, hmean]
    rw [hret, add_sub_add_right_eq_sub]
  have hgr : ∀ t, P'.gram W t = P.gram W t := fun t => by unfold Panel.gram; simp only [hsc]
  have hpar : ∀ t, P'.params W t = P.params W t := fun t => by unfold Panel.params; simp only [hgr, hcov]
  have hout : ∀ t, P'.outcome solver W W t = P.outcome solver W W t := fun t => by unfold Panel.outcome; simp only [hpar]
  have hw : ∀ t, P'.weightsAt solver W W t = P.weightsAt solver W W t := fun t => by unfold Panel.weightsAt; rw [hout]
  refine ⟨⟨⟨?_, ?_⟩, ?_, ?_⟩, ?_⟩
  · rw [hlen, htime]; exact h.ok.time_lt
  · rw [hlen, hcov]; exact h.ok.posDef
  · intro t h3 h4; rw [hgr]; exact h.gram t h3 (hlen ▸ h4)
  · intro t h3 h4; rw [hout]; exact h.solved t h3 (hlen ▸ h4)
  · unfold runTables
    simp only [MeanTables.mk.injEq, hlen, htime, hcov, hw, true_and, and_true, List.map_map]
    apply List.map_congr_left
    intro t ht
    rw [List.mem_range'_1] at ht
    have htP : t < P.len := by omega
    simp only [Function.comp]
    rw [show P'.mean t = fun k => P.mean t k + v from funext (hmean t), blendMean_shift (h.ok.posDef t htP)]
    obtain ⟨w, hw⟩ := h.solved t (by omega) htP
    have : P.weightsAt solver W W t = w := by unfold Panel.weightsAt; rw [hw]
    rw [this]
    unfold Panel.outcome at hw
    rw [range'_concat_params P W W _ (by omega)] at hw
    exact hfe _ _ _ hw

/-- **C171.** If the vector `v` is added to the returns of every row, the covariances, the weights and the dates stay
the same and `v` is added to every mean. This holds for every solver. -/
theorem C171_shift (h : MeanSetup solver covPairs meanPairs p q mv mc f window T tm x) (lamda : ℝ) (v : Vec n)
    {d : MeanTables τ n K} (hd : cmMean solver covPairs meanPairs (rowDict T tm x) mv mc lamda window = .ok d) :
    cmMean solver covPairs meanPairs (rowDict T tm fun t i => x t i + v i) mv mc lamda window
      = .ok { d with means := d.means.map fun r => (r.1, r.2 + v) } := by
  obtain ⟨h1, h2, rfl⟩ := (cmMean_ok_iff h lamda d).mp hd
  obtain ⟨h3, h4⟩ := run_shift (P := meanPanel p q mv mc f lamda tm x T) (P' := meanPanel p q mv mc f lamda tm (fun t i => x t i + v i) T) v h.feasible rfl rfl
    (funext fun t => expertSigma_shift lamda v _) (fun t k => expertMean_shift v _ k) (fun s => rfl) h2
  refine (cmMean_ok_iff (h.shift v) lamda _).mpr ⟨?_, h3, h4.symm⟩
  intro k s h3 h4
  have e : (rowMeanIewma mv mc (p k) (q k) f (fun t i => x t i + v i) s).covariance
      = (rowMeanIewma mv mc (p k) (q k) f x s).covariance := by rw [rowMeanIewma_shift]
  rw [e]
  exact h1 k s h3 h4

/-- **C171.** A constant added to the returns does not decide whether the cell succeeds. -/
theorem C171_shift_succeeds (h : MeanSetup solver covPairs meanPairs p q mv mc f window T tm x) (lamda : ℝ) (v : Vec n) :
    (∃ d, cmMean solver covPairs meanPairs (rowDict T tm fun t i => x t i + v i) mv mc lamda window = .ok d) ↔
      ∃ d, cmMean solver covPairs meanPairs (rowDict T tm x) mv mc lamda window = .ok d := by
  constructor
  · rintro ⟨d, hd⟩
    have := C171_shift (h.shift v) lamda (-v) hd
    have e : (fun (t : ℕ) (i : Fin n) => x t i + v i + (-v) i) = x := by
      funext t i
      show x t i + v i + -v i = _
      ring
    rw [e] at this
    exact ⟨_, this⟩
  · rintro ⟨d, hd⟩
    exact ⟨_, C171_shift h lamda v hd⟩

/-! ### Other units -/

theorem FirstRow.scale (h : FirstRow mv x f) (d : Vec n) (hd : ∀ i, d i ≠ 0) : FirstRow mv (fun t i => d i * x t i) f := by
  have e : ∀ s, (fun i => d i * x s i) ≠ (fun i => d i * x 0 i) ↔ x s ≠ x 0 := fun s => by
    rw [not_iff_not]
    constructor
    · intro h; funext i; have := congrFun h i; simpa [hd i] using this
    · intro h; rw [h]
  exact ⟨h.enough, by obtain ⟨s, h1, h2⟩ := h.moved; exact ⟨s, h1, (e s).mpr h2⟩,
    fun g h1 ⟨s, h2, h3⟩ => h.least g h1 ⟨s, h2, (e s).mp h3⟩⟩

theorem MeanSetup.scale (h : MeanSetup solver covPairs meanPairs p q mv mc f window T tm x) (d : Vec n) (hd : ∀ i, d i ≠ 0)
    {solver' : Solver n K} (hs' : solver'.Feasible) :
    MeanSetup solver' covPairs meanPairs p q mv mc f window T tm fun t i => d i * x t i :=
  { h with first := h.first.scale d hd, feasible := hs' }

theorem rowMeanIewma_scale {p q : ℝ × ℝ} (hp : 0 < p.1 ∧ 0 < p.2) (hq : 0 ≤ q.1 ∧ 0 ≤ q.2) (hf : FirstRow mv x f)
    (d : Vec n) (hd : ∀ i, d i ≠ 0) {s : ℕ} (hs : warm mc f ≤ s) :
    ∃ v, rowMeanIewma mv mc p q f (fun t i => d i * x t i) s
      = { time := (rowMeanIewma mv mc p q f x s).time
          mean := Arr.ofFn fun i => fin (d i) * (rowMeanIewma mv mc p q f x s).mean i
          covariance := Arr.ofFn fun r => fin (d r.1 * d r.2) * (rowMeanIewma mv mc p q f x s).covariance r
          volatility := v } := by
  have htm : Increasing (s + 1) (fun t : ℕ => t) := fun a b h _ => h
  have hfs : f < s + 1 := by unfold warm at hs; omega
  have e := iterated_mean (mc := mc) hp hq (hf.scale d hd) htm hfs
  have e0 := iterated_mean (mc := mc) hp hq hf htm hfs
  have hfr : finFrame (s + 1) (fun t : ℕ => t) (fun t i => d i * x t i)
      = (finFrame (s + 1) (fun t : ℕ => t) x).map fun q => (q.1, Arr.ofFn fun i => fin (d i) * q.2 i) := by
    unfold finFrame finRows
    rw [List.map_map]
    apply List.map_congr_left
    intro t _
    simp only [Function.comp, finRow, Arr.get_ofFn]
    rfl
  rw [hfr, C08_scale _ _ d hd, e0] at e
  have e2 := Except.ok.inj e
  have e3 := congrArg (fun l => l[s - warm mc f]?) e2
  simp only [List.map_map, List.getElem?_map] at e3
  have hr : (List.range' (warm mc f) (s + 1 - warm mc f))[s - warm mc f]? = some s := by
    rw [List.getElem?_range' (by omega)]
    congr 1; omega
  rw [hr] at e3
  simp only [Option.map_some, Option.some.injEq, Function.comp] at e3
  exact ⟨_, e3.symm⟩

theorem expertMean_scale (h : MeanSetup solver covPairs meanPairs p q mv mc f window T tm x) (d : Vec n) (hd : ∀ i, d i ≠ 0)
    {s : ℕ} (hs : warm mc f ≤ s) (k : Fin K) :
    expertMean p q mv mc f (fun t i => d i * x t i) s k = fun i => d i * expertMean p q mv mc f x s k i := by
  obtain ⟨v, e⟩ := rowMeanIewma_scale (mc := mc) (h.halflives k) (h.meanHalflives k) h.first d hd hs
  funext i
  unfold expertMean
  rw [e]
  simp only [Arr.get_ofFn]
  rw [show (rowMeanIewma mv mc (p k) (q k) f x s).mean i = fin (meanAt (meanArgs mv mc (p k) (q k)) (s + 1) x (s - f) i) by
    simp only [rowMeanIewma, itemAt, finRow, Arr.get_ofFn]]
  rfl

theorem expertSigma_scale (h : MeanSetup solver covPairs meanPairs p q mv mc f window T tm x) (lamda : ℝ)
    (hfin : FiniteSigmas p q mv mc f x T) (d : Vec n) (hd : ∀ i, d i ≠ 0) {s : ℕ} (hs : warm mc f ≤ s) (hsT : s < T) (k : Fin K) :
    expertSigma p q mv mc f lamda (fun t i => d i * x t i) s k
      = Matrix.of fun a b => d a * expertSigma p q mv mc f lamda x s k a b * d b := by
  obtain ⟨v, e⟩ := rowMeanIewma_scale (mc := mc) (h.halflives k) (h.meanHalflives k) h.first d hd hs
  have er : realCov (rowMeanIewma mv mc (p k) (q k) f (fun t i => d i * x t i) s)
      = Matrix.of fun a b => d a * realCov (rowMeanIewma mv mc (p k) (q k) f x s) a b * d b := by
    rw [e, realCov_scale d _ (hfin k s hs hsT)]
  unfold expertSigma
  simp only [er]
  split
  · ext a b
    simp only [Matrix.of_apply]
    split <;> ring
  · rfl

/-- **C171.** Units: if the returns of asset `i` are multiplied by `d i ≠ 0`, the cell (with solvers that find the optimum)
has the same dates and weights, the covariances are multiplied by `d i * d j` and the means by `d i`. -/
theorem C171_units (h : MeanSetup solver covPairs meanPairs p q mv mc f window T tm x) (lamda : ℝ) (d : Vec n)
    (hd : ∀ i, d i ≠ 0) (hs : solver.Exact ∧ solver.Complete) {solver' : Solver n K} (hs' : solver'.Exact ∧ solver'.Complete)
    {D : MeanTables τ n K} (hD : cmMean solver covPairs meanPairs (rowDict T tm x) mv mc lamda window = .ok D) :
    cmMean solver' covPairs meanPairs (rowDict T tm fun t i => d i * x t i) mv mc lamda window
      = .ok { covariances := D.covariances.map fun r => (r.1, Matrix.of fun i j => d i * r.2 i j * d j)
              means := D.means.map fun r => (r.1, fun i => d i * r.2 i)
              weights := D.weights } := by
  have h' := h.scale d hd (solver' := solver') hs'.1.feasible
  have hK := h.experts
  obtain ⟨h1, h2, rfl⟩ := (cmMean_ok_iff h lamda D).mp hD
  have hrows := h.rows
  set W := meanWindow mc f window T with hW
  set P := meanPanel p q mv mc f lamda tm x T with hP
  set P' := meanPanel p q mv mc f lamda tm (fun t i => d i * x t i) T with hP'
  have hlen : P.len = T - warm mc f := rfl
  have hlen' : P'.len = P.len := rfl
  have hcov' : ∀ t < P.len, P'.cov t = (P.rescale d).cov t := fun t ht => by
    funext k
    exact expertSigma_scale h lamda h1 d hd (by omega) (by omega) k
  have hmean' : ∀ t, P'.mean t = (P.rescale d).mean t := fun t => by
    funext k
    exact expertMean_scale h d hd (by omega) k
  have hag : ∀ t < P.len, P'.AgreeTo (P.rescale d) t := fun t ht =>
    ⟨fun s _ => rfl, fun s hst => hcov' s (by omega), fun s _ => hmean' s, fun s _ _ => rfl⟩
  have hrok := rescale_ok h2.ok d hd
  have hok : P'.Ok := ⟨h2.ok.time_lt, fun t ht i => by
    rw [(hag t ht).cov t le_rfl]; exact hrok.posDef t ht i⟩
  have hgr : ∀ t, W ≤ t → t < P.len → P'.gram W t = P.gram W t := fun t h3 h4 => by
    rw [gram_agree (hag t h4) h3, gram_rescale h2.ok d hd h3 h4]
  have hll : ∀ t, W ≤ t → t < P.len → ∀ w, P'.logLik W t w = (P.rescale d).logLik W t w := fun t h3 h4 w => by
    unfold Panel.logLik
    apply Finset.sum_congr rfl
    intro s hs
    rw [Finset.mem_Ioc] at hs
    rw [(hag t h4).cov (s - 1) (by omega), (hag t h4).mean (s - 1) (by omega), (hag t h4).ret s (by omega) hs.2]
  have hbest : ∀ t, W ≤ t → t < P.len → P'.best W t = P.best W t := fun t h3 h4 => by
    have hg' : (P'.gram W t).PosDef := by rw [hgr t h3 h4]; exact h2.gram t h3 h4
    have hb := best_optimal h2.ok hK h3 h4 (h2.gram t h3 h4)
    refine optimal_unique hok h3 h4 hg' (best_optimal hok hK h3 h4 hg') ⟨hb.1, fun w' hw' => ?_⟩
    rw [hll t h3 h4, hll t h3 h4, logLik_rescale h2.ok d hd h3 h4 hw', logLik_rescale h2.ok d hd h3 h4 hb.1]
    have := hb.2 w' hw'
    linarith
  have hout' : ∀ t, W ≤ t → t < P.len → P'.outcome solver' W W t = .weights (P.best W t) := fun t h3 h4 => by
    rw [outcome_complete hok hK h3 h3 h4 (by rw [hgr t h3 h4]; exact h2.gram t h3 h4) hs'.1 hs'.2, hbest t h3 h4]
  have hout : ∀ t, W ≤ t → t < P.len → P.outcome solver W W t = .weights (P.best W t) := fun t h3 h4 =>
    outcome_complete h2.ok hK h3 h3 h4 (h2.gram t h3 h4) hs.1 hs.2
  have hw : ∀ t, W ≤ t → t < P.len → P.weightsAt solver W W t = P.best W t := fun t h3 h4 => by
    unfold Panel.weightsAt; rw [hout t h3 h4]
  have hw' : ∀ t, W ≤ t → t < P.len → P'.weightsAt solver' W W t = P.best W t := fun t h3 h4 => by
    unfold Panel.weightsAt; rw [hout' t h3 h4]
  refine (cmMean_ok_iff h' lamda _).mpr ⟨?_, ⟨hok, fun t h3 h4 => ?_, fun t h3 h4 => ⟨_, hout' t h3 h4⟩⟩, ?_⟩
  · intro k s hs1 hs2 r
    obtain ⟨v, e⟩ := rowMeanIewma_scale (mc := mc) (h.halflives k) (h.meanHalflives k) h.first d hd hs1
    rw [e]
    obtain ⟨c, hc⟩ := h1 k s hs1 hs2 r
    refine ⟨d r.1 * d r.2 * c, ?_⟩
    show (Arr.ofFn fun q => fin (d q.1 * d q.2) * _) r = _
    rw [Arr.get_ofFn, hc]; rfl
  · rw [hgr t h3 h4]; exact h2.gram t h3 h4
  · unfold runTables
    simp only [MeanTables.mk.injEq]
    have hcovd : ∀ t < P.len, P'.cov t = fun k => Matrix.diagonal d * P.cov t k * Matrix.diagonal d := fun t ht => by
      rw [hcov' t ht]
      funext k
      exact rescale_eq _ _
    refine ⟨?_, ?_, ?_⟩
    · rw [List.map_map]
      apply List.map_congr_left
      intro t ht
      rw [List.mem_range'_1] at ht
      have htP : t < P.len := by omega
      simp only [Function.comp]
      rw [hw t ht.1 htP, hw' t ht.1 htP, hcovd t htP, blendCov_rescale (h2.ok.posDef t htP) d hd, rescale_eq]
      rfl
    · rw [List.map_map]
      apply List.map_congr_left
      intro t ht
      rw [List.mem_range'_1] at ht
      have htP : t < P.len := by omega
      simp only [Function.comp]
      have hm : P'.mean t = fun k => Matrix.diagonal d *ᵥ P.mean t k := by
        rw [hmean']
        funext k i
        rw [Matrix.mulVec_diagonal]
        rfl
      rw [hw t ht.1 htP, hw' t ht.1 htP, hcovd t htP, hm, blendMean_rescale (h2.ok.posDef t htP) _ d hd]
      congr 1
      funext i
      rw [Matrix.mulVec_diagonal]
    · apply List.map_congr_left
      intro t ht
      rw [List.mem_range'_1] at ht
      rw [hw t ht.1 (by omega), hw' t ht.1 (by omega)]
      rfl

end

/-! ### A concrete run -/

namespace CmMeanEx

/-- one asset and one expert with half-lives of one day -/
def pairs : List (ℝ × ℝ) := [(1, 1)]
def p : Fin 1 → ℝ × ℝ := fun _ => (1, 1)
noncomputable def solver : Solver 1 1 := exactSolver 1 1

/-- the mean predicted at row `s` -/
noncomputable def mean (y : ℕ → Vec 1) (s : ℕ) : ℝ := expertMean p p 1 2 1 y s 0 0

/-- three returns; then each is one above its predicted mean -/
def x0 (s : ℕ) : Vec 1 := if s = 1 then ![-2] else ![1]
noncomputable def x1 : ℕ → Vec 1 := Function.update x0 3 ![mean x0 2 + 1]
noncomputable def x : ℕ → Vec 1 := Function.update x1 4 ![mean x1 3 + 1]

theorem x_head {s : ℕ} (h : s ≤ 2) : x s = x0 s := by
  unfold x x1
  rw [Function.update_of_ne (by omega), Function.update_of_ne (by omega)]

theorem x_next : ∀ s, 2 ≤ s → s + 1 < 5 → x (s + 1) 0 = mean x s + 1 := by
  intro s h1 h2
  have hs : s = 2 ∨ s = 3 := by omega
  rcases hs with rfl | rfl
  · have e : mean x 2 = mean x0 2 := by
      unfold mean
      rw [expertMean_congr fun u hu => x_head hu]
    rw [e]
    unfold x x1
    rw [Function.update_of_ne (by omega), Function.update_self]
    rfl
  · have e : mean x 3 = mean x1 3 := by
      unfold mean
      rw [expertMean_congr fun u hu => by unfold x; rw [Function.update_of_ne (by omega)]]
    rw [e]
    unfold x
    rw [Function.update_self]
    rfl

theorem first : FirstRow 1 x 1 where
  enough := by norm_num
  moved := ⟨1, le_rfl, fun h => by
    have := congrFun h 0
    rw [x_head (by norm_num), x_head (by norm_num)] at this
    norm_num [x0] at this⟩
  least := fun g _ ⟨s, h1, h2⟩ => by
    by_contra hg
    have : s = 0 := by omega
    exact h2 (by rw [this])

theorem setup {T : ℕ} (hT : 4 ≤ T) : MeanSetup solver pairs pairs p p 1 2 1 1 T (id : ℕ → ℕ) x where
  experts := by norm_num
  labels := fun s t h _ => h
  covPairs := fun k => by rw [Subsingleton.elim k 0]; rfl
  meanPairs := fun k => by rw [Subsingleton.elim k 0]; rfl
  halflives := fun k => by norm_num [p]
  meanHalflives := fun k => by norm_num [p]
  window_pos := by norm_num
  feasible := exactSolver_exact.feasible
  first := first
  rows := hT

theorem args_mu1h : (meanArgs 1 2 (1, 1) (1, 1)).mu1h = 1 := by
  simp [meanArgs, RealArgs.mu1h, orElse]

theorem args_mu2h : (meanArgs 1 2 (1, 1) (1, 1)).mu2h = 1 := by
  simp [meanArgs, RealArgs.mu2h, orElse]

theorem half (k : ℕ) : (2 : ℝ) ^ (-(k : ℝ) / 1) = (1 / 2) ^ k := by
  rw [div_one, Real.rpow_neg (by norm_num), Real.rpow_natCast, one_div, inv_pow]

theorem c1 : cRet (meanArgs 1 2 (1, 1) (1, 1)) x 1 0 = -1 := by
  unfold cRet muOf halflifeAverage
  rw [args_mu1h]
  simp only [half, Finset.sum_range_succ, Finset.sum_range_zero]
  rw [x_head (by norm_num), x_head (by norm_num)]
  norm_num [x0, meanArgs]

theorem c2 : cRet (meanArgs 1 2 (1, 1) (1, 1)) x 2 0 = 6 / 7 := by
  unfold cRet muOf halflifeAverage
  rw [args_mu1h]
  simp only [half, Finset.sum_range_succ, Finset.sum_range_zero]
  rw [x_head (by norm_num), x_head (by norm_num), x_head (by norm_num)]
  norm_num [x0, meanArgs]

theorem pos : (0 : ℝ) < ((1, 1) : ℝ × ℝ).1 ∧ (0 : ℝ) < ((1, 1) : ℝ × ℝ).2 := by norm_num
theorem nonneg : (0 : ℝ) ≤ ((1, 1) : ℝ × ℝ).1 ∧ (0 : ℝ) ≤ ((1, 1) : ℝ × ℝ).2 := by norm_num

theorem vol_pos {t : ℕ} (ht : 1 ≤ t) : 0 < vol (meanArgs 1 2 (1, 1) (1, 1)) x t 0 := by
  refine lt_of_le_of_ne (Real.sqrt_nonneg _) fun h => ?_
  have := (volSq_zero_iff (meanArgs_valid pos nonneg) x t 0).mp h.symm 1 ht (Or.inl rfl)
  rw [c1] at this
  norm_num at this

theorem z1 {N : ℕ} (hN : 3 ≤ N) : zAt (meanArgs 1 2 (1, 1) (1, 1)) N x 1 0 ≠ 0 := by
  have ha : ∀ j < 2, adjAt (meanArgs 1 2 (1, 1) (1, 1)) N x j 0
      = cRet (meanArgs 1 2 (1, 1) (1, 1)) x (1 + j) 0 / vol (meanArgs 1 2 (1, 1) (1, 1)) x (1 + j) 0 := fun j hj => by
    unfold adjAt
    rw [live_mean_getD pos nonneg first (by omega)]
    rfl
  have e0 := ha 0 (by norm_num)
  have e1 := ha 1 (by norm_num)
  rw [show 1 + 0 = 1 from rfl, c1] at e0
  rw [show 1 + 1 = 2 from rfl, c2] at e1
  have hneg : adjAt (meanArgs 1 2 (1, 1) (1, 1)) N x 0 0 < 0 := by
    rw [e0]; exact div_neg_of_neg_of_pos (by norm_num) (vol_pos le_rfl)
  have hpos : 0 < adjAt (meanArgs 1 2 (1, 1) (1, 1)) N x 1 0 := by
    rw [e1]; exact div_pos (by norm_num) (vol_pos (by norm_num))
  unfold zAt muOf halflifeAverage
  rw [args_mu2h]
  simp only [half, Finset.sum_range_succ, Finset.sum_range_zero]
  rw [if_pos (show (meanArgs 1 2 (1, 1) (1, 1)).mean = true from rfl)]
  norm_num
  intro h
  linarith

theorem good {s : ℕ} (hs : 2 ≤ s) : GoodCov (rowMeanIewma 1 2 (1, 1) (1, 1) 1 x s) := by
  unfold rowMeanIewma
  rw [goodCov_iff]
  constructor
  · intro i
    rw [live_mean_getD pos nonneg first (by omega), Subsingleton.elim i 0]
    exact (vol_pos (by omega)).ne'
  · intro u hu
    have := hu 1 (by omega)
    rw [Fin.sum_univ_one] at this
    funext i
    rw [Subsingleton.elim i 0]
    exact (mul_eq_zero.mp this).resolve_right (z1 (by omega))

theorem sigma_posDef {lamda : ℝ} (hl : 0 ≤ lamda) {s : ℕ} (hs : 2 ≤ s) (k : Fin 1) :
    (expertSigma p p 1 2 1 lamda x s k).PosDef := by
  have h00 := (good hs).posDef.diag_pos (i := 0)
  have hd : ∀ M : Mat 1, 0 < M 0 0 → M.PosDef := by
    intro M hM
    have : M = Matrix.diagonal fun _ => M 0 0 := by
      ext a b
      rw [Subsingleton.elim a 0, Subsingleton.elim b 0]; simp
    rw [this]
    exact Matrix.PosDef.diagonal fun _ => hM
  apply hd
  unfold expertSigma
  rw [Subsingleton.elim k 0]
  rw [if_pos (show ((0 : Fin 1) : ℕ) = 0 from rfl)]
  simp only [Matrix.of_apply, if_true]
  exact mul_pos (by linarith) h00

/-- The cell runs through, so the hypotheses of C170 and C171 are met. -/
theorem run {T : ℕ} (hT : 4 ≤ T) (hT' : T ≤ 5) {lamda : ℝ} (hl : 0 ≤ lamda) :
    ∃ d, cmMean solver pairs pairs (rowDict T (id : ℕ → ℕ) x) 1 2 lamda 1 = .ok d := by
  refine (C170_success (setup hT) lamda ⟨exactSolver_exact, exactSolver_complete⟩).mpr ⟨?_, ?_, ?_⟩
  · intro k s hs _ r
    exact (good hs).finite r
  · exact fun s hs _ k => sigma_posDef hl hs k
  · intro t ht htT
    have hW : meanWindow 2 1 1 T = 1 := by unfold meanWindow warm; omega
    rw [hW] at ht ⊢
    unfold warm at htT
    apply gram_posDef_of
    intro w hw
    have h := congrFun (hw t (by omega) le_rfl) 0
    have e : ((meanPanel p p 1 2 1 lamda (id : ℕ → ℕ) x T).scores t *ᵥ w) 0
        = precFactor (expertSigma p p 1 2 1 lamda x (2 + (t - 1)) 0) 0 0
          * (x (2 + t) 0 - mean x (2 + (t - 1))) * w 0 := by
      rw [Matrix.mulVec, dotProduct, Fin.sum_univ_one]
      simp [Panel.scores, meanPanel, Matrix.mulVec, dotProduct, warm, mean]
    rw [e, show 2 + t = 2 + (t - 1) + 1 by omega, x_next _ (by omega) (by omega)] at h
    have hp := (precFactor_isChol (sigma_posDef hl (s := 2 + (t - 1)) (by omega) 0)).pos 0
    funext i
    rw [Subsingleton.elim i 0]
    rcases mul_eq_zero.mp h with h | h
    · rcases mul_eq_zero.mp h with h | h
      · exact absurd h hp.ne'
      · exact absurd h (by norm_num)
    · exact h

/-- Five rows: two dates with predictions; the run on four rows has the first one. Returns higher by 3 have means higher by 3;
returns times -2 have covariances times 4. -/
example : ∃ d, cmMean solver pairs pairs (rowDict 5 (id : ℕ → ℕ) x) 1 2 0.05 1 = .ok d ∧
    d.means.map Prod.fst = [3, 4] ∧
    (∃ d', cmMean solver pairs pairs (rowDict 4 (id : ℕ → ℕ) x) 1 2 0.05 1 = .ok d' ∧ d'.means = d.means.take 1) ∧
    cmMean solver pairs pairs (rowDict 5 (id : ℕ → ℕ) fun t i => x t i + 3) 1 2 0.05 1
      = .ok { d with means := d.means.map fun r => (r.1, r.2 + fun _ => 3) } ∧
    cmMean solver pairs pairs (rowDict 5 (id : ℕ → ℕ) fun t i => -2 * x t i) 1 2 0.05 1
      = .ok { covariances := d.covariances.map fun r => (r.1, Matrix.of fun i j => -2 * r.2 i j * -2)
              means := d.means.map fun r => (r.1, fun i => -2 * r.2 i)
              weights := d.weights } := by
  obtain ⟨d, hd⟩ := run (T := 5) (lamda := 0.05) (by norm_num) le_rfl (by norm_num)
  obtain ⟨h1, h2, _⟩ := C170_days (setup (by norm_num)) 0.05 hd
  obtain ⟨d', h3, _, h4, _⟩ := C170_no_lookahead (setup (T := 4) le_rfl) 0.05 (setup (T := 5) (by norm_num)) (by norm_num)
    (fun _ _ => rfl) (by norm_num [warm]) hd
  refine ⟨d, hd, ?_, ⟨d', h3, h4⟩, C171_shift (setup (by norm_num)) 0.05 (fun _ => 3) hd,
    C171_units (setup (by norm_num)) 0.05 (fun _ => -2) (fun _ => by norm_num) ⟨exactSolver_exact, exactSolver_complete⟩
      ⟨exactSolver_exact, exactSolver_complete⟩ hd⟩
  rw [h2, h1]
  rfl

/-- One pair for two experts: `IndexError`. -/
example : cmMean (K := 2) (exactSolver 1 2) pairs pairs (rowDict 5 (id : ℕ → ℕ) x) 1 2 0.05 1 = .error .indexError :=
  (C170_too_few (fun s t h _ => h) (fun r hr => by rw [List.mem_singleton.mp hr]; exact pos)
    (fun r hr => by rw [List.mem_singleton.mp hr]; exact nonneg) first (by norm_num) _ _).1 (Or.inl (by norm_num [pairs]))

end CmMeanEx

end CovPred
