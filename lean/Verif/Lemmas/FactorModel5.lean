import Verif.Lemmas.FactorModel4
import Verif.Props.CombEquiv

/-
The items of the factor model depend on the rows up to their own only.
-/
set_option linter.unusedSectionVars false
namespace CovPred
open Matrix XR

variable {τ : Type} [LinearOrder τ] {n k : ℕ} {L : Type} [DecidableEq L]

theorem itemAt_data {ι : Type} [Ix ι] {a : RealArgs} (hm : a.mean = false) {T : ℕ} (hT : 0 < T) (tm : ℕ → τ) {x x' : ℕ → ι → ℝ}
    (h : ∀ t < T, x t = x' t) (j : ℕ) : itemAt a T tm x j = itemAt a T tm x' j := by
  have hc : ∀ t < T, cRet a x t = cRet a x' t := fun t ht => by
    funext i; unfold cRet muOf; rw [hm, h t ht]; simp
  have hv : ∀ t < T, vol a x t = vol a x' t := fun t ht => by
    funext i; unfold vol volSq
    rw [varSeq_congr fun s hs => by rw [hc s (by omega)]]
  have hl : live a T x = live a T x' := by
    unfold live
    apply List.filter_congr
    intro t ht
    rw [List.mem_range] at ht
    rw [hc t ht, hv t ht]
  have hlt : ∀ i, (live a T x').getD i 0 < T := fun i => by
    rcases Nat.lt_or_ge i (live a T x').length with hi | hi
    · exact (mem_live.mp (liveRows_getD_mem hi)).1
    · rw [List.getD_eq_getElem?_getD, List.getElem?_eq_none hi]; exact hT
  have hadj : ∀ i, adjAt a T x i = adjAt a T x' i := fun i => by
    funext c; unfold adjAt; rw [hl, hc _ (hlt i), hv _ (hlt i)]
  have hz : ∀ i, zAt a T x i = zAt a T x' i := fun i => by
    funext c; unfold zAt muOf; rw [hadj i, hm]; simp
  have hcov : ∀ p, covAt a T x j p = covAt a T x' j p := fun p => by
    unfold covAt halflifeAverage
    simp only [hz]
  have hmean : meanAt a T x j = meanAt a T x' j := by
    funext i; unfold meanAt; rw [hm]; simp
  have hsig : sigmaAt a T x j = sigmaAt a T x' j := by
    funext p; unfold sigmaAt; simp only [hcov, hl, hv _ (hlt j)]
  unfold itemAt
  rw [hmean, hsig, hl, hv _ (hlt j)]

theorem expertCov_congr (label : XR × XR → L) (pairs : List (ℝ × ℝ)) {f f' : ℕ → Vec k} {s : ℕ} (h : ∀ u ≤ s, f u = f' u) :
    expertCov label pairs f s = expertCov label pairs f' s := by
  have e : ∀ q, factorIewma q f s = factorIewma q f' s := fun q => by
    unfold factorIewma
    rw [itemAt_data rfl (by omega) _ fun t ht => h t (by omega)]
  funext i
  unfold expertCov
  simp only [e]

theorem weightsAt_congr (label : XR × XR → L) (pairs : List (ℝ × ℝ)) (solvers : Solvers k) {tm tm' : ℕ → τ} {f f' : ℕ → Vec k}
    {s0 N N' s : ℕ} (h : ∀ u ≤ s, f u = f' u) (hs : s0 + 10 ≤ s) :
    (factorPanel label pairs tm f s0 N).weightsAt (solvers _) 10 10 (s - s0)
      = (factorPanel label pairs tm' f' s0 N').weightsAt (solvers _) 10 10 (s - s0) := by
  unfold Panel.weightsAt
  have : (factorPanel label pairs tm f s0 N).outcome (solvers _) 10 10 (s - s0)
      = (factorPanel label pairs tm' f' s0 N').outcome (solvers _) 10 10 (s - s0) := by
    unfold Panel.outcome
    congr 1
    apply List.map_congr_left
    intro u hu
    rw [List.mem_range'_1] at hu
    apply params_congr (by omega)
    · intro v _ hv
      exact expertCov_congr label pairs fun w hw => h w (by omega)
    · intro v _ _; rfl
    · intro v h1 hv
      exact h _ (by omega)
  rw [this]

theorem factorModel_ext {m m' : FactorModel τ n k} (h1 : m.time = m'.time) (h2 : m.exposure = m'.exposure)
    (h3 : m.factorCov = m'.factorCov) (h4 : m.diagonal = m'.diagonal) : m = m' := by
  cases m; cases m'
  simp only at h1 h2 h3 h4
  subst h1 h2 h3 h4
  rfl

theorem blockItem_congr (label : XR × XR → L) (solvers : Solvers k) (pairs : List (ℝ × ℝ)) {tm tm' : ℕ → τ} {x x' : ℕ → Vec n}
    (E : Matrix (Fin k) (Fin n) ℝ) {N N' t s : ℕ} (ht : 10 ≤ t) (hts : t ≤ s) (hx : ∀ u ≤ s, x u = x' u) (htm : tm s = tm' s) :
    blockItem label solvers pairs tm x E N t s = blockItem label solvers pairs tm' x' E N' t s := by
  have hf : ∀ u ≤ s, factorRet E x u = factorRet E x' u := fun u hu => by unfold factorRet; rw [hx u hu]
  apply factorModel_ext
  · exact htm
  · rfl
  · have h1 := expertCov_congr label pairs hf
    have h2 := weightsAt_congr (tm := tm) (tm' := tm') (s0 := t - 10) (N := N) (N' := N') label pairs solvers hf (by omega)
    show blendCov _ _ = blendCov _ _
    rw [h1, h2]
  · funext i
    show halflifeAverage 21 _ s = halflifeAverage 21 _ s
    rw [halflifeAverage_eq, halflifeAverage_eq]
    apply emaAvg_congr
    intro u hu
    unfold residual
    rw [hx u hu]

theorem itemOfRow_congr (label : XR × XR → L) (pca : Pca n k) (solvers : Solvers k) (pairs : List (ℝ × ℝ)) {T T' : ℕ}
    {tm tm' : ℕ → τ} {x x' : ℕ → Vec n} {freq memory s : ℕ} (hm : 10 ≤ memory) (hms : memory ≤ s) (hx : ∀ u ≤ s, x u = x' u)
    (ht : tm s = tm' s) :
    itemOfRow label pca solvers pairs T tm x freq memory s = itemOfRow label pca solvers pairs T' tm' x' freq memory s := by
  have hb := blockOf_le (freq := freq) hms
  have hb' := le_blockOf memory freq s
  have hrows : trainingRows memory x (blockOf memory freq s) = trainingRows memory x' (blockOf memory freq s) := by
    unfold trainingRows
    apply List.map_congr_left
    intro u hu
    rw [List.mem_range'_1] at hu
    exact hx u (by omega)
  have hE : exposureAt pca memory x (blockOf memory freq s) = exposureAt pca memory x' (blockOf memory freq s) := by
    unfold exposureAt; rw [hrows]
  unfold itemOfRow
  rw [hE]
  exact blockItem_congr label solvers pairs _ (by omega) hb hx ht

end CovPred
