import Verif.Lemmas.FactorModel5
import Verif.Props.Scores
import Verif.Lemmas.EM

/-
Properties C101-C105 of the factor model (experiments/utils/factor_model.py).

The returns are the rows `x 0, ..., x (T-1)` with labels `tm`. `FactorSetup` (Verif/Spec/FactorModel.lean) collects the
conditions on the arguments: increasing labels, positive half-lives, `memory >= 3 k + 8` (so that the experts have left
their warm-up and the 10-day window fits), factor returns that are not all 0 in the first `k` rows, and a solver that
respects its constraints.
-/
set_option linter.unusedSectionVars false
namespace CovPred
open Matrix XR

variable {τ : Type} [LinearOrder τ] {n k : ℕ} {L : Type} [DecidableEq L]

section
variable (label : XR × XR → L) {pca : Pca n k} {solvers : Solvers k} {pairs : List (ℝ × ℝ)} {T : ℕ}
  {tm : ℕ → τ} {x : ℕ → Vec n} {freq memory : ℕ}

/-! ### C101: the schedule -/

/-- **C101.** The items are for the rows `memory, memory + 1, ...`, one each, in order. If no exception is raised they go
up to the last row; otherwise they stop at the end of a block. -/
theorem C101_schedule (h : FactorSetup pca solvers pairs T tm x freq memory) :
    ∃ m ≤ T - memory,
      (constructFactorModel label pca solvers (rowDict T tm x) (pairs.map xr) freq memory).1.map FactorModel.time
        = (List.range' memory m).map tm ∧
      ((constructFactorModel label pca solvers (rowDict T tm x) (pairs.map xr) freq memory).2 = none → m = T - memory) ∧
      (∀ e, (constructFactorModel label pca solvers (rowDict T tm x) (pairs.map xr) freq memory).2 = some e →
        m < T - memory ∧ freq ∣ m) := by
  obtain ⟨c, hc, err, he, hok, hend⟩ := factorModel_run label h
  refine ⟨min (c * freq) (T - memory), by omega, ?_, ?_, ?_⟩
  · rw [he, List.map_map]; rfl
  · rw [he]
    rintro rfl
    rcases hend with ⟨_, rfl⟩ | ⟨_, _, e, he'⟩
    · have := blocks_cover (T := T) (memory := memory) h.step
      omega
    · cases he'
  · intro e' he'
    rw [he] at he'
    rcases hend with ⟨h1, _⟩ | ⟨h1, _, _⟩
    · rw [h1] at he'; cases he'
    · have := start_lt (T := T) (memory := memory) h.step h1
      rw [show min (c * freq) (T - memory) = c * freq by omega]
      exact ⟨by omega, Dvd.intro_left c rfl⟩

/-- the row of an item -/
theorem item_row (h : FactorSetup pca solvers pairs T tm x freq memory) {j : ℕ} {m : FactorModel τ n k}
    (hm : (constructFactorModel label pca solvers (rowDict T tm x) (pairs.map xr) freq memory).1[j]? = some m) :
    memory + j < T ∧ BlockOk label pca solvers pairs T tm x freq memory (blockOf memory freq (memory + j)) ∧
      m = itemOfRow label pca solvers pairs T tm x freq memory (memory + j) := by
  obtain ⟨c, hc, err, he, hok, hend⟩ := factorModel_run label h
  rw [he] at hm
  simp only [List.getElem?_map, Option.map_eq_some_iff] at hm
  obtain ⟨s, hs, rfl⟩ := hm
  obtain ⟨hlt, hs'⟩ := List.getElem?_eq_some_iff.mp hs
  rw [List.length_range'] at hlt
  simp only [List.getElem_range', one_mul] at hs'
  subst hs'
  refine ⟨by omega, ?_, rfl⟩
  have hlt2 : j / freq < c := by
    rw [Nat.div_lt_iff_lt_mul h.step]; omega
  have := hok _ hlt2
  have e : blockOf memory freq (memory + j) = memory + j / freq * freq := by
    unfold blockOf; rw [Nat.add_sub_cancel_left]
  rw [e]
  exact this

/-- **C101.** The exposures of the item of row `s` are those `pca` finds for the `memory` rows before the block of `s`: the
block starts at `memory + j * freq` for some `j`, at most `freq - 1` rows before `s`. -/
theorem C101_exposure (h : FactorSetup pca solvers pairs T tm x freq memory) {j : ℕ} {m : FactorModel τ n k}
    (hm : (constructFactorModel label pca solvers (rowDict T tm x) (pairs.map xr) freq memory).1[j]? = some m) :
    m.time = tm (memory + j) ∧ ∃ b i, b = memory + i * freq ∧ b ≤ memory + j ∧ memory + j < b + freq ∧
      pca ((List.range' (b - memory) memory).map x) = .ok m.exposure := by
  obtain ⟨h1, h2, rfl⟩ := item_row label h hm
  refine ⟨rfl, blockOf memory freq (memory + j), (memory + j - memory) / freq, rfl, blockOf_le (by omega),
    lt_blockOf_add h.step (by omega), h2.exposure⟩

/-- **C101.** When the run goes through: in every block `pca` succeeds, the experts' covariances are finite and positive
definite, the window Gram matrices are positive definite and the solver returns weights for every row. -/
theorem C101_success (h : FactorSetup pca solvers pairs T tm x freq memory) :
    (constructFactorModel label pca solvers (rowDict T tm x) (pairs.map xr) freq memory).2 = none ↔
      ∀ i, memory + i * freq < T → ∃ E, pca ((List.range' (i * freq) memory).map x) = .ok E ∧
        FiniteExperts label pairs (factorRet E x) (memory + i * freq - 10) (min (memory + i * freq + freq) T) ∧
        (factorPanel label pairs tm (factorRet E x) (memory + i * freq - 10) (min (memory + i * freq + freq) T)).Completes
          (solvers _) 10 := by
  obtain ⟨c, hc, err, he, hok, hend⟩ := factorModel_run label h
  have htr : ∀ i, trainingRows memory x (memory + i * freq) = (List.range' (i * freq) memory).map x := fun i => by
    unfold trainingRows; rw [Nat.add_sub_cancel_left]
  rw [he]
  constructor
  · rintro rfl i hi
    rcases hend with ⟨_, rfl⟩ | ⟨_, _, e, he'⟩
    · have hlt : i < (T - memory + freq - 1) / freq := by
        rw [Nat.lt_iff_add_one_le, Nat.le_div_iff_mul_le h.step, Nat.add_mul]
        omega
      have hb := hok i hlt
      exact ⟨_, by rw [← htr]; exact hb.exposure, hb.finite, hb.completes⟩
    · cases he'
  · intro hall
    rcases hend with ⟨h1, _⟩ | ⟨h1, hno, _⟩
    · exact h1
    · exfalso
      apply hno
      obtain ⟨E, hE, hf, hcm⟩ := hall c (start_lt h.step h1)
      rw [← htr] at hE
      have hEE : exposureAt pca memory x (memory + c * freq) = E := by unfold exposureAt; rw [hE]
      exact ⟨by rw [hEE]; exact hE, by rw [hEE]; exact hf, by rw [hEE]; exact hcm⟩

/-! ### C102: what the items hold -/

theorem factor_logLik (P0 : ℕ) (N : ℕ) (f : ℕ → Vec k) {s : ℕ} (hs : P0 + 10 ≤ s) (w : Vec _) :
    (factorPanel label pairs tm f P0 N).logLik 10 (s - P0) w = factorWindowLogLik label pairs f s w := by
  unfold Panel.logLik factorWindowLogLik
  apply Finset.sum_bij (fun u _ => P0 + u)
  · intro u hu
    rw [Finset.mem_Ioc] at hu ⊢
    omega
  · intro a _ b _ hab; omega
  · intro b hb
    rw [Finset.mem_Ioc] at hb
    exact ⟨b - P0, by rw [Finset.mem_Ioc]; omega, by omega⟩
  · intro u hu
    rw [Finset.mem_Ioc] at hu
    have e : blendMean ((factorPanel label pairs tm f P0 N).cov (u - 1)) ((factorPanel label pairs tm f P0 N).mean (u - 1)) w = 0 := by
      unfold blendMean
      simp [factorPanel]
    rw [e]
    show gaussLogDensity 0 (blendCov (expertCov label pairs f (P0 + (u - 1))) w) (f (P0 + u)) = _
    rw [show P0 + (u - 1) = P0 + u - 1 by omega]

/-- **C102.** The item of row `s`: the diagonal is the half-life-21 average of the squared residuals of the rows up to
`s`; the experts' covariances are positive definite and the factor covariance is their blend with weights on the simplex;
if the solver is exact these weights maximise the likelihood of the factor returns of the last 10 rows. -/
theorem C102_item (h : FactorSetup pca solvers pairs T tm x freq memory) {j : ℕ} {m : FactorModel τ n k}
    (hm : (constructFactorModel label pca solvers (rowDict T tm x) (pairs.map xr) freq memory).1[j]? = some m) :
    (∀ i, m.diagonal i = halflifeAverage 21 (fun u => residual m.exposure x u i ^ 2) (memory + j)) ∧
    (∀ i, (expertCov label pairs (factorRet m.exposure x) (memory + j) i).PosDef) ∧
    ∃ w, Simplex w ∧ m.factorCov = blendCov (expertCov label pairs (factorRet m.exposure x) (memory + j)) w ∧
      ((∀ K, (solvers K).Exact) → ∀ w', Simplex w' →
        factorWindowLogLik label pairs (factorRet m.exposure x) (memory + j) w'
          ≤ factorWindowLogLik label pairs (factorRet m.exposure x) (memory + j) w) := by
  obtain ⟨h1, hb, rfl⟩ := item_row label h hm
  have hw := h.warm
  have hk := h.factors
  have hb1 := blockOf_le (memory := memory) (freq := freq) (s := memory + j) (by omega)
  have hb2 := lt_blockOf_add (memory := memory) (s := memory + j) h.step (by omega)
  have hb3 := le_blockOf memory freq (memory + j)
  set b := blockOf memory freq (memory + j) with hbd
  set E := exposureAt pca memory x b with hE
  set P := factorPanel label pairs tm (factorRet E x) (b - 10) (min (b + freq) T) with hP
  have hlen : P.len = min (b + freq) T - (b - 10) := rfl
  have hpos := hb.completes.ok.posDef (memory + j - (b - 10)) (by show _ < P.len; omega)
  have hcov : P.cov (memory + j - (b - 10)) = expertCov label pairs (factorRet E x) (memory + j) := by
    show expertCov label pairs _ (b - 10 + (memory + j - (b - 10))) = _
    rw [show b - 10 + (memory + j - (b - 10)) = memory + j by omega]
  obtain ⟨w, hout⟩ := hb.completes.solved (memory + j - (b - 10)) (by omega) (by show _ < P.len; omega)
  have hout' : P.outcome (solvers _) 10 10 (memory + j - (b - 10)) = .weights w := hout
  have hwat : P.weightsAt (solvers _) 10 10 (memory + j - (b - 10)) = w := by unfold Panel.weightsAt; rw [hout']
  have hsimp : Simplex w := by
    have := hout'
    unfold Panel.outcome at this
    rw [range'_concat_params P 10 10 _ (by omega)] at this
    exact h.feasible _ _ _ _ this
  refine ⟨fun i => rfl, ?_, w, hsimp, ?_, ?_⟩
  · intro i
    have := hpos i
    change (P.cov (memory + j - (b - 10)) i).PosDef at this
    rw [hcov] at this
    exact this
  · show blendCov _ (P.weightsAt (solvers _) 10 10 (memory + j - (b - 10))) = _
    rw [hwat]
    rfl
  · intro hex w' hw'
    have hgr := hb.completes.gram (memory + j - (b - 10)) (by omega) (by show _ < P.len; omega)
    obtain ⟨p0, ps, hps⟩ : ∃ p0 ps, pairs = p0 :: ps := by
      cases hp : pairs with
      | nil => exact absurd hp h.pairs_ne
      | cons p0 ps => exact ⟨p0, ps, rfl⟩
    have hK : 0 < nExperts label pairs := by rw [hps]; exact expertPairs_pos label p0 ps
    have hbest := outcome_exact (P := P) hb.completes.ok hK (a := 10) (W := 10) (t := memory + j - (b - 10)) (by omega) (by omega)
      (by show _ < P.len; omega) hgr (hex _) hout'
    have hopt := best_optimal (P := P) hb.completes.ok hK (W := 10) (t := memory + j - (b - 10)) (by omega)
      (by show _ < P.len; omega) hgr
    rw [← hbest] at hopt
    have := hopt.2 w' hw'
    rw [hP, factor_logLik label (b - 10) _ _ (by omega), factor_logLik label (b - 10) _ _ (by omega)] at this
    exact this

theorem halflifeAverage_nonneg {h : ℝ} {v : ℕ → ℝ} {t : ℕ} (hv : ∀ u ≤ t, 0 ≤ v u) : 0 ≤ halflifeAverage h v t := by
  unfold halflifeAverage
  apply div_nonneg
  · apply Finset.sum_nonneg
    intro u hu
    rw [Finset.mem_range] at hu
    exact mul_nonneg (Real.rpow_nonneg (by norm_num) _) (hv u (by omega))
  · exact Finset.sum_nonneg fun u _ => Real.rpow_nonneg (by norm_num) _

theorem halflifeAverage_pos_iff {h : ℝ} {v : ℕ → ℝ} {t : ℕ} (hv : ∀ u ≤ t, 0 ≤ v u) :
    0 < halflifeAverage h v t ↔ ∃ u ≤ t, v u ≠ 0 := by
  have hden : 0 < ∑ u ∈ Finset.range (t + 1), (2 : ℝ) ^ (-((t - u : ℕ) : ℝ) / h) :=
    Finset.sum_pos (fun u _ => Real.rpow_pos_of_pos (by norm_num) _) ⟨0, by simp⟩
  unfold halflifeAverage
  rw [div_pos_iff_of_pos_right hden]
  have hnn : ∀ u ∈ Finset.range (t + 1), 0 ≤ (2 : ℝ) ^ (-((t - u : ℕ) : ℝ) / h) * v u := by
    intro u hu
    rw [Finset.mem_range] at hu
    exact mul_nonneg (Real.rpow_nonneg (by norm_num) _) (hv u (by omega))
  rw [Finset.sum_pos_iff_of_nonneg hnn]
  constructor
  · rintro ⟨u, hu, hpos⟩
    rw [Finset.mem_range] at hu
    refine ⟨u, by omega, ?_⟩
    rintro h0
    rw [h0, mul_zero] at hpos
    exact lt_irrefl _ hpos
  · rintro ⟨u, hu, hne⟩
    exact ⟨u, Finset.mem_range.mpr (by omega), mul_pos (Real.rpow_pos_of_pos (by norm_num) _) (lt_of_le_of_ne (hv u hu) (Ne.symm hne))⟩

/-- the covariance of an item as a quadratic form -/
theorem full_quad (m : FactorModel τ n k) (v : Vec n) :
    v ⬝ᵥ (m.full *ᵥ v) = (m.exposure *ᵥ v) ⬝ᵥ (m.factorCov *ᵥ (m.exposure *ᵥ v)) + ∑ i, m.diagonal i * v i ^ 2 := by
  unfold FactorModel.full
  rw [Matrix.add_mulVec, dotProduct_add]
  congr 1
  · rw [← Matrix.mulVec_mulVec, ← Matrix.mulVec_mulVec, Matrix.dotProduct_mulVec, Matrix.vecMul_transpose]
  · simp only [dotProduct, Matrix.mulVec_diagonal]
    apply Finset.sum_congr rfl
    intro i _
    ring

theorem full_posSemidef {m : FactorModel τ n k} (hF : m.factorCov.PosSemidef) (hd : ∀ i, 0 ≤ m.diagonal i) :
    m.full.PosSemidef := by
  unfold FactorModel.full
  have h1 := conj_posSemidef hF m.exposureᵀ
  rw [Matrix.transpose_transpose] at h1
  exact h1.add (Matrix.PosSemidef.diagonal hd)

/-- **C102.** The factor covariance is positive definite, the diagonal is non-negative; the covariance of the assets
(exposureᵀ * factor covariance * exposure + diagonal) is positive semidefinite, and it is positive definite as soon as every
asset had a non-zero residual up to the row. -/
theorem C102_valid (h : FactorSetup pca solvers pairs T tm x freq memory) {j : ℕ} {m : FactorModel τ n k}
    (hm : (constructFactorModel label pca solvers (rowDict T tm x) (pairs.map xr) freq memory).1[j]? = some m) :
    m.factorCov.PosDef ∧ (∀ i, 0 ≤ m.diagonal i) ∧
    (∀ i, 0 < m.diagonal i ↔ ∃ u ≤ memory + j, residual m.exposure x u i ≠ 0) ∧
    m.full.PosSemidef ∧
    ((∀ i, ∃ u ≤ memory + j, residual m.exposure x u i ≠ 0) → m.full.PosDef) := by
  obtain ⟨hd, hE, w, hw, hF, _⟩ := C102_item label h hm
  have hFp : m.factorCov.PosDef := by rw [hF]; exact blendCov_posDef hE hw
  have hnn : ∀ i, 0 ≤ m.diagonal i := fun i => by rw [hd i]; exact halflifeAverage_nonneg fun u _ => sq_nonneg _
  have hpos : ∀ i, 0 < m.diagonal i ↔ ∃ u ≤ memory + j, residual m.exposure x u i ≠ 0 := fun i => by
    rw [hd i, halflifeAverage_pos_iff fun u _ => sq_nonneg _]
    simp only [ne_eq, pow_eq_zero_iff, OfNat.ofNat_ne_zero, not_false_eq_true]
  refine ⟨hFp, hnn, hpos, full_posSemidef hFp.posSemidef hnn, fun hall => ?_⟩
  unfold FactorModel.full
  have h1 := conj_posSemidef hFp.posSemidef m.exposureᵀ
  rw [Matrix.transpose_transpose] at h1
  exact Matrix.PosDef.posSemidef_add h1 (Matrix.PosDef.diagonal fun i => (hpos i).mpr (hall i))

/-- **C102.** The variance of a portfolio `v` under an item: the factor covariance at the factor exposures of the
portfolio, plus the idiosyncratic variances. -/
theorem C102_portfolio_variance (m : FactorModel τ n k) (v : Vec n) :
    v ⬝ᵥ (m.full *ᵥ v) = (m.exposure *ᵥ v) ⬝ᵥ (m.factorCov *ᵥ (m.exposure *ᵥ v)) + ∑ i, m.diagonal i * v i ^ 2 :=
  full_quad m v

/-! ### C103: causality -/

/-- **C103.** No look-ahead: if two histories agree up to row `memory + j`, and both runs yield an item for this row, these
items are equal. (Neither the number of rows nor the later rows matter, not even those of the same block.) -/
theorem C103_no_lookahead {T' : ℕ} {tm' : ℕ → τ} {x' : ℕ → Vec n} (h : FactorSetup pca solvers pairs T tm x freq memory)
    (h' : FactorSetup pca solvers pairs T' tm' x' freq memory) {j : ℕ} (hx : ∀ u ≤ memory + j, x u = x' u)
    (ht : tm (memory + j) = tm' (memory + j)) {m m' : FactorModel τ n k}
    (hm : (constructFactorModel label pca solvers (rowDict T tm x) (pairs.map xr) freq memory).1[j]? = some m)
    (hm' : (constructFactorModel label pca solvers (rowDict T' tm' x') (pairs.map xr) freq memory).1[j]? = some m') :
    m = m' := by
  obtain ⟨_, _, rfl⟩ := item_row label h hm
  obtain ⟨_, _, rfl⟩ := item_row label h' hm'
  have := h.warm
  have := h.factors
  exact itemOfRow_congr label pca solvers pairs (by omega) (by omega) hx ht

end

/-! ### C104: the likelihood -/

theorem lookup_rows {A : Type} {T : ℕ} {tm : ℕ → τ} (htm : Increasing T tm) (v : ℕ → A) {t : ℕ} (ht : t < T) :
    (rowDict T tm v).lookup (tm t) = some (v t) :=
  lookup_map_range (fun s t h1 h2 => htm s t h1 h2) v t ht

theorem shiftBack_rows (T : ℕ) (tm : ℕ → τ) (r : ℕ → NRow n) :
    shiftBack (rowDict T tm r) = rowDict T tm fun s => if s + 1 < T then r (s + 1) else fun _ => none :=
  shiftBack_panel tm r T

/-- **C104.** The score of an item: its covariance is scored, with mean 0, against the return of the next row. It is `nan`
exactly if the item is for the last row or the next row has a missing entry. -/
theorem C104_scores {T : ℕ} {tm : ℕ → τ} (htm : Increasing T tm) (r : ℕ → NRow n) {ms : List (FactorModel τ n k)}
    (row : FactorModel τ n k → ℕ) (hrow : ∀ m ∈ ms, row m < T ∧ m.time = tm (row m) ∧ m.full.PosDef) :
    factorLogLikelihood (rowDict T tm r) ms = .ok (ms.map fun m => (m.time,
      if row m + 1 < T then gaussLogDensityN 0 m.full (r (row m + 1)) else gaussLogDensityN 0 m.full fun _ => none)) := by
  unfold factorLogLikelihood
  apply mapM_ok_of
  intro m hm
  obtain ⟨h1, h2, h3⟩ := hrow m hm
  rw [shiftBack_rows, h2, lookup_rows htm _ h1]
  dsimp only
  rw [singleN_eq h3]
  split <;> rfl

/-- **C104.** The value for a row `s < T - 1` whose next row is complete is the Gaussian log-density, for the last row it is
`nan` (if there are assets). -/
theorem C104_value {T : ℕ} {tm : ℕ → τ} (htm : Increasing T tm) (x : ℕ → Vec (n + 1)) {m : FactorModel τ (n + 1) k} {s : ℕ}
    (hs : s < T) (ht : m.time = tm s) (hp : m.full.PosDef) :
    factorLogLikelihood (rowDict T tm fun u i => some (x u i)) [m]
      = .ok [(tm s, if s + 1 < T then some (gaussLogDensity 0 m.full (x (s + 1))) else none)] := by
  rw [C104_scores htm _ (fun _ => s) (by simpa using ⟨hs, ht, hp⟩)]
  simp only [List.map_cons, List.map_nil, ht, gaussLogDensityN, Option.isSome_some, implies_true, if_true, Option.getD_some,
    Option.isSome_none]
  congr 4
  simp

/-- **C104.** An item whose time is not a label of the returns raises `KeyError`. -/
theorem C104_key_error (returns : List (τ × NRow n)) (m : FactorModel τ n k) (ms ms' : List (FactorModel τ n k))
    (hms : ∀ a ∈ ms, ∃ v, factorLogLikelihood returns [a] = .ok v) (h : m.time ∉ returns.map Prod.fst) :
    factorLogLikelihood returns (ms ++ m :: ms') = .error .keyError := by
  have hl : (shiftBack returns).lookup m.time = none := by
    rw [List.lookup_eq_none_iff]
    intro p hp
    have : p.1 ∈ returns.map Prod.fst := by
      unfold shiftBack at hp
      exact (List.of_mem_zip (a := p.1) (b := p.2) hp).1
    have hne : m.time ≠ p.1 := fun e => h (e ▸ this)
    simpa using hne
  induction ms with
  | nil =>
    unfold factorLogLikelihood
    rw [List.nil_append, List.mapM_cons, hl]
    rfl
  | cons a ms ih =>
    have h1 := ih fun b hb => hms b (List.mem_cons_of_mem _ hb)
    obtain ⟨v, hv⟩ := hms a List.mem_cons_self
    unfold factorLogLikelihood at h1 hv ⊢
    rw [List.cons_append, List.mapM_cons, h1]
    rw [List.mapM_cons, List.mapM_nil] at hv
    cases hl2 : (shiftBack returns).lookup a.time with
    | none => rw [hl2] at hv; cases hv
    | some r =>
      rw [hl2] at hv
      dsimp only at hv ⊢
      cases hs : singleLogLikelihoodN r a.full 0 with
      | error e => rw [hs] at hv; cases hv
      | ok ll => rfl

/-! ### C105 -/

/-- **C105.** With orthonormal exposures (`E Eᵀ = 1`, as `pca` returns them) the residuals have no factor component, the
squared length of a return is that of its factor returns plus that of its residual, and the factors of the modelled assets
have the factor covariance plus the idiosyncratic part. -/
theorem C105_residual (E : Matrix (Fin k) (Fin n) ℝ) (hE : E * Eᵀ = 1) (x : ℕ → Vec n) (u : ℕ) :
    E *ᵥ residual E x u = 0 ∧
    x u ⬝ᵥ x u = factorRet E x u ⬝ᵥ factorRet E x u + residual E x u ⬝ᵥ residual E x u := by
  have h0 : E *ᵥ residual E x u = 0 := by
    unfold residual
    rw [Matrix.mulVec_sub, Matrix.mulVec_mulVec, hE, Matrix.one_mulVec, sub_self]
  refine ⟨h0, ?_⟩
  have hx : x u = Eᵀ *ᵥ factorRet E x u + residual E x u := by
    unfold residual factorRet
    rw [add_sub_cancel]
  have hc : (Eᵀ *ᵥ factorRet E x u) ⬝ᵥ residual E x u = 0 := by
    rw [Matrix.mulVec_transpose, ← Matrix.dotProduct_mulVec, h0, dotProduct_zero]
  have hf : (Eᵀ *ᵥ factorRet E x u) ⬝ᵥ (Eᵀ *ᵥ factorRet E x u) = factorRet E x u ⬝ᵥ factorRet E x u := by
    rw [Matrix.dotProduct_mulVec, Matrix.vecMul_transpose, Matrix.mulVec_mulVec, hE, Matrix.one_mulVec]
  conv_lhs => rw [hx]
  rw [add_dotProduct, dotProduct_add, dotProduct_add, hc, hf, dotProduct_comm (residual E x u), hc]
  ring

/-- **C105.** The factors of the modelled assets have the factor covariance plus the idiosyncratic part. -/
theorem C105_factor_covariance (m : FactorModel τ n k) (hE : m.exposure * m.exposureᵀ = 1) :
    m.exposure * m.full * m.exposureᵀ
      = m.factorCov + m.exposure * Matrix.diagonal m.diagonal * m.exposureᵀ := by
  unfold FactorModel.full
  rw [Matrix.mul_add, Matrix.add_mul]
  congr 1
  calc m.exposure * (m.exposureᵀ * m.factorCov * m.exposure) * m.exposureᵀ
      = (m.exposure * m.exposureᵀ) * m.factorCov * (m.exposure * m.exposureᵀ) := by simp only [Matrix.mul_assoc]
    _ = m.factorCov := by rw [hE, Matrix.one_mul, Matrix.mul_one]

/-- **C105.** `from_factor_to_full_covariance` of items with distinct times: one covariance per item, in order,
`exposureᵀ factor_covariance exposure + diagonal`. -/
theorem C105_full_covariance (ms : List (FactorModel τ n k)) (h : (ms.map FactorModel.time).Nodup) :
    fromFactorToFullCovariance ms
      = ms.map fun m => (m.time, m.exposureᵀ * m.factorCov * m.exposure + Matrix.diagonal m.diagonal) := by
  unfold fromFactorToFullCovariance
  rw [dictOf_nodup]
  · rfl
  · rw [List.map_map]; exact h

end CovPred
