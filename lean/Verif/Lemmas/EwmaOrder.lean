import Verif.Model.EwmaOrder
import Verif.Spec.EwmaOrder
import Verif.Lemmas.IewmaMain
import Verif.Lemmas.Inv
import Verif.Lemmas.Pure

/-
`iteratedEwmaPd` stage by stage.
-/
set_option linter.unusedSectionVars false
namespace CovPred
open XR

section generic

variable {τ ι : Type} [LinearOrder τ] [Ix ι] {α : Type} [Scalar α]

theorem alignPd_increasing (op : α → α → α) {f : Frame τ ι α} (hf : f.index.Pairwise (· < ·)) (g : Frame τ ι α) :
    Frame.alignPd op f g = Frame.alignWith op f g := by
  unfold Frame.alignPd
  split
  · rfl
  · apply List.mergeSort_of_pairwise
    have : (Frame.alignWith op f g).map Prod.fst = f.index := by
      unfold Frame.alignWith Frame.index
      rw [List.map_map]; rfl
    rw [← this, List.pairwise_map] at hf
    exact hf.imp fun h => decide_eq_true h.le

theorem alignPd_index (op : α → α → α) {f g : Frame τ ι α} (h : f.index = g.index) :
    Frame.alignPd op f g = Frame.alignWith op f g := if_pos (Or.inl h)

theorem centerPd_increasing {f : Frame τ ι α} (hf : f.index.Pairwise (· < ·)) (h : α) (mp : Int) (mean : Bool) :
    centerPd f h mp mean = center f h mp mean := by
  unfold centerPd center
  split
  · congr 1
    funext m
    rw [alignPd_increasing _ hf]
  · rfl

theorem index_center_sublist {f : Frame τ ι α} {h : α} {mp : Int} {mean : Bool} {cm : Frame τ ι α × Frame τ ι α}
    (hc : center f h mp mean = .ok cm) : cm.1.index.Sublist f.index := by
  unfold center at hc
  split at hc
  · rcases he : ewmaMean f h mp none with e | m
    · rw [he] at hc; cases hc
    · rw [he] at hc
      have hc := Except.ok.inj hc
      rw [← hc]
      have h1 : (Frame.alignWith (· - ·) f m).map Prod.fst = f.map Prod.fst := by
        unfold Frame.alignWith
        rw [List.map_map]; rfl
      have h2 := List.Sublist.map Prod.fst (List.filter_sublist (l := Frame.alignWith (· - ·) f m)
        (p := fun p => !(p.2.all Scalar.isNaN)))
      rw [h1] at h2
      exact h2
  · rw [← Except.ok.inj hc]

theorem iteratedEwmaPd_steps (f : Frame τ ι α) (a : IewmaArgs α) :
    iteratedEwmaPd f a =
      (centerPd (filled f a) ((Scalar.truthy a.muHalflife1).getD a.volaHalflife) 0 a.mean).bind fun cm =>
      (volatility cm.1 a.volaHalflife a.minPeriodsVola a.clipAt).bind fun vola =>
      (centerPd (clip (Frame.alignPd (· / ·) cm.1 vola) a.clipAt).fillna0
        ((Scalar.truthy a.muHalflife2).getD a.covHalflife) 0 a.mean).bind fun am =>
      (ewmaCov am.1 a.covHalflife a.minPeriodsCov).bind fun covs =>
      covs.mapM fun p => iewmaItem a.mean vola cm.2 am.2 p.1 p.2 := rfl

theorem bind_congr_ok {A B : Type} (e : Except Err A) {f g : A → Except Err B} (h : ∀ a, e = .ok a → f a = g a) :
    e.bind f = e.bind g := by
  cases e with
  | error e => rfl
  | ok a => exact h a rfl

theorem iteratedEwmaPd_increasing {f : Frame τ ι α} (hf : f.index.Pairwise (· < ·)) (a : IewmaArgs α) :
    iteratedEwmaPd f a = iteratedEwma f a := by
  rw [iteratedEwmaPd_steps, iteratedEwma_steps]
  have h1 : (filled f a).index.Pairwise (· < ·) := by
    have : (filled f a).index = f.index := index_filled f a
    rw [this]; exact hf
  rw [centerPd_increasing h1]
  apply bind_congr_ok
  intro cm hcm
  have h2 : cm.1.index.Pairwise (· < ·) := h1.sublist (index_center_sublist hcm)
  apply bind_congr_ok
  intro vola _
  rw [alignPd_increasing _ h2, centerPd_increasing]
  have h3 : ((clip (Frame.alignWith (· / ·) cm.1 vola) a.clipAt).fillna0).index.Sublist cm.1.index := by
    have e1 := index_clip (Frame.alignWith (· / ·) cm.1 vola) a.clipAt
    rw [index_align] at e1
    have e2 := index_fillna0 (clip (Frame.alignWith (· / ·) cm.1 vola) a.clipAt)
    unfold Frame.index
    rw [e2]; exact e1
  exact h2.sublist h3

end generic

variable {τ ι : Type} [LinearOrder τ] [Ix ι]

theorem index_finRows (l : List ℕ) (tm : ℕ → τ) (x : ℕ → ι → ℝ) : (finRows l tm x).index = l.map tm := by
  unfold finRows Frame.index
  rw [List.map_map]; rfl

theorem centerPd_fin [Nonempty ι] {h : ℝ} (hh : 0 < h) (mean : Bool) {T : ℕ} (hT : 0 < T) (tm : ℕ → τ) (x : ℕ → ι → ℝ) :
    centerPd (finFrame T tm x) (fin h) 0 mean = center (finFrame T tm x) (fin h) 0 mean := by
  unfold centerPd center
  split
  · rw [ewmaMean_fin hh 0 hT]
    simp only [Except.map]
    rw [alignPd_index]
    rw [rowsFrom_zero]
    unfold finFrame
    rw [index_finRows, index_finRows]
  · rfl

theorem represents_runPd {f : Frame τ ι XR} {a : RealArgs} {T : ℕ} {tm : ℕ → τ} {x : ℕ → ι → ℝ}
    (hf : Represents f a.nanToNum T tm x) : filled f a.toArgs = finFrame T tm x := by
  obtain ⟨R, rfl, hR⟩ := hf
  rw [filled_eq]
  show (if a.nanToNum then _ else _) = _
  by_cases hb : a.nanToNum = true
  · rw [if_pos hb]
    unfold Frame.fillna0 Frame.mapVals finFrame finRows
    rw [List.map_map]
    apply List.map_congr_left
    intro t ht
    simp only [Function.comp]
    congr 1
    ext i
    rw [Arr.get_map]
    rcases hR t (List.mem_range.mp ht) i with h | ⟨_, h, h0⟩
    · rw [h]; simp [finRow]
    · rw [h]; simp [finRow, h0, zero_def]
  · rw [if_neg hb]
    unfold finFrame finRows
    apply List.map_congr_left
    intro t ht
    congr 1
    ext i
    rcases hR t (List.mem_range.mp ht) i with h | ⟨h, _⟩
    · rw [h]; simp [finRow]
    · exact absurd h hb

/-- a row of the quotient -/
noncomputable def quotRow (x : Arr ι XR) : Option (Arr ι XR) → Arr ι XR
  | some r => Arr.ofFn fun i => x i / r i
  | none => Arr.ofFn fun _ => Scalar.nan

open Classical in
/-- the division, when it sorts -/
theorem adj_sorted (mv : Int) {clp : Option ℝ} (hc : ∀ c ∈ clp, c ≠ 0) {T : ℕ}
    {tm : ℕ → τ} (hd : DistinctTimes T tm) (x s : ℕ → ι → ℝ) (hz : clp = none → ∀ t i, s t i = 0 → x t i = 0) (l : List ℕ)
    (hl : ∀ t ∈ l, t < T) (F : Frame τ ι XR) (hF : F = l.map fun t => (tm t, quotRow (finRow (x t)) ((finRows (rowsFrom mv T) tm s).loc? (tm t)))) :
    (clip F (clp.map fin)).fillna0 =
      finRows (l.filter fun t => decide (mv - 1 ≤ (t : Int) ∧ ∃ i, ¬ (s t i = 0 ∧ x t i = 0))) tm
        fun t i => adjReal clp (x t i) (s t i) := by
  rw [clip_eq hc]
  have hmap : F.mapVals (optClip clp) = l.map fun t => (tm t, if mv - 1 ≤ (t : Int) then
        Arr.ofFn fun i => optClip clp (fin (x t i) / fin (s t i)) else Arr.ofFn fun _ => nan) := by
    rw [hF]
    unfold Frame.mapVals
    rw [List.map_map]
    apply List.map_congr_left
    intro t ht
    have ht := hl t ht
    simp only [Function.comp]
    rw [loc_finRows hd s (fun k hk => rowsFrom_lt hk) ht]
    congr 1
    by_cases h : mv - 1 ≤ (t : Int)
    · rw [if_pos (mem_rowsFrom.mpr ⟨ht, h⟩), if_pos h]
      ext i
      simp [finRow, quotRow]
    · rw [if_neg (fun hm => h (mem_rowsFrom.mp hm).2), if_neg h]
      ext i
      have : Scalar.isNaN (optClip clp nan) = true := by rw [isNaN_optClip]; rfl
      simpa [nan_def, quotRow] using (isNaN_iff _).mp this
  rw [hmap]
  apply map_filter_rows
  · intro t _ hl
    have hl := of_decide_eq_false hl
    rw [Arr.all_iff]
    intro i
    by_cases h : mv - 1 ≤ (t : Int)
    · rw [if_pos h, Arr.get_ofFn, isNaN_optClip, isNaN_div_fin]
      by_contra hcon
      exact hl ⟨h, i, hcon⟩
    · rw [if_neg h]; simp
  · intro t _ hl
    obtain ⟨h, i, hi⟩ := of_decide_eq_true hl
    rw [if_pos h]
    constructor
    · rw [Bool.eq_false_iff]
      intro hall
      have := (Arr.all_iff _ _).mp hall i
      rw [Arr.get_ofFn, isNaN_optClip, isNaN_div_fin] at this
      exact hi this
    · ext j
      rw [Arr.get_map, Arr.get_ofFn]
      simp only [finRow, Arr.get_ofFn]
      exact fill_optClip_div (fun hcl => hz hcl t j)

theorem covOn_self_nonneg (a : RealArgs) (rows : List ℕ) (x : ℕ → ι → ℝ) (j : ℕ) (i : ι) : 0 ≤ covOn a rows x j (i, i) := by
  unfold covOn
  rw [halflifeAverage_eq]
  exact emaAvg_nonneg (betaOf_pos _) fun k _ => mul_self_nonneg _

/-- from the adjusted returns on -/
theorem tail_fin [Nonempty ι] {a : RealArgs} (ha : a.Valid) {T : ℕ} {tm : ℕ → τ} (hd : DistinctTimes T tm) (x : ℕ → ι → ℝ)
    {S : List ℕ} (hlt : ∀ k ∈ S, k < T) (hge : ∀ k ∈ S, a.minPeriodsVola - 1 ≤ (k : Int)) (hn : S.Nodup) :
    ((center (finRows S tm fun t i => adjReal a.clip (cRet a x t i) (vol a x t i)) (fin a.mu2h) 0 a.mean).bind fun am =>
      (ewmaCov am.1 (fin a.covHalflife) a.minPeriodsCov).bind fun covs =>
      covs.mapM fun p => iewmaItem a.mean (finRows (rowsFrom a.minPeriodsVola T) tm (vol a x))
        (finFrame T tm (muOf a.mean a.mu1h x)) am.2 p.1 p.2)
    = if S = [] then .error .indexError else .ok ((rowsFrom a.minPeriodsCov S.length).map (itemOn a S tm x)) := by
  have hm2 : 0 < a.mu2h := orElse_pos ha.cov ha.mu2
  rw [finRows_reindex]
  by_cases hS : S = []
  · rw [if_pos hS, hS]
    simp only [List.length_nil]
    have hnil : ∀ (tm : ℕ → τ) (y : ℕ → ι → ℝ), finFrame 0 tm y = [] := fun _ _ => rfl
    rw [hnil]
    have hg : ∀ (h : ℝ) (hh : 0 < h) (κ : Type) [Ix κ] (fct : Arr ι XR → Arr κ XR) (mp : Int),
        general ([] : Frame τ ι XR) (some (fin h)) none fct mp none = .error .indexError := by
      intro h hh κ _ fct mp
      unfold general; rw [decay_fin hh.ne' none]
    cases hmean : a.mean with
    | true =>
      simp only [center, if_true, ewmaMean, hg _ hm2, Except.map, Except.bind]
    | false =>
      simp only [center, Bool.false_eq_true, if_false, ewmaCov, hg _ ha.cov, Except.map, Except.bind]
  · rw [if_neg hS]
    have hlen : 0 < S.length := List.length_pos_of_ne_nil hS
    have hd' := distinct_reindex hd hlt hn
    rw [center_fin hm2 a.mean hlen hd']
    simp only [Except.bind]
    rw [show (fun (t : ℕ) (i : ι) => adjReal a.clip (cRet a x (S.getD t 0) i)
        (vol a x (S.getD t 0) i)) = adjOn a S x from rfl]
    rw [show (fun (t : ℕ) (i : ι) => adjReal a.clip (cRet a x (S.getD t 0) i)
        (vol a x (S.getD t 0) i) - muOf a.mean a.mu2h (adjOn a S x) t i) = zOn a S x from rfl]
    rw [ewmaCov_fin ha.cov _ hlen]
    rw [show (fun (t : ℕ) (p : ι × ι) => emaAvg (betaOf a.covHalflife)
        (fun k => zOn a S x k p.1 * zOn a S x k p.2) t) = covOn a S x from by
      funext t p; unfold covOn; rw [halflifeAverage_eq]]
    simp only []
    conv_lhs => arg 2; unfold finRows
    rw [List.mapM_map]
    apply mapM_ok
    intro j hj
    have hj' := rowsFrom_lt hj
    have hmem := liveRows_getD_mem hj'
    have hltj := hlt _ hmem
    have hgej := hge _ hmem
    have hv : locE (finRows (rowsFrom a.minPeriodsVola T) tm (vol a x)) (tm (S.getD j 0)) =
        .ok (finRow (vol a x (S.getD j 0))) := by
      unfold locE
      rw [loc_finRows hd _ (fun k hk => rowsFrom_lt hk) hltj, if_pos (mem_rowsFrom.mpr ⟨hltj, hgej⟩)]
    have h1 : locE (finFrame T tm (muOf a.mean a.mu1h x)) (tm (S.getD j 0)) =
        .ok (finRow (muOf a.mean a.mu1h x (S.getD j 0))) := by
      unfold locE finFrame
      rw [loc_finRows hd _ (fun k hk => List.mem_range.mp hk) hltj, if_pos (List.mem_range.mpr hltj)]
    have h2 : locE (finFrame S.length (fun j => tm (S.getD j 0))
          (muOf a.mean a.mu2h (adjOn a S x))) (tm (S.getD j 0)) =
        .ok (finRow (muOf a.mean a.mu2h (adjOn a S x) j)) := by
      unfold locE finFrame
      rw [loc_finRows (t := j) hd' _ (fun k hk => List.mem_range.mp hk) hj', if_pos (List.mem_range.mpr hj')]
    show iewmaItem a.mean (finRows (rowsFrom a.minPeriodsVola T) tm (vol a x)) (finFrame T tm (muOf a.mean a.mu1h x))
      (finFrame S.length (fun j => tm (S.getD j 0)) (muOf a.mean a.mu2h (adjOn a S x)))
      (tm (S.getD j 0)) (finRow (covOn a S x j)) = .ok (itemOn a S tm x j)
    have hcov := scaleCov_fin (vol a x (S.getD j 0)) (covOn a S x j) (covOn_self_nonneg a S x j)
    unfold iewmaItem itemOn
    rw [show Arr.ofFn (sigmaOn a S x j) = _ from hcov.symm]
    rw [hv, h1, h2]
    have hsm : scaleMean (finRow (vol a x (S.getD j 0)))
        (finRow (muOf a.mean a.mu1h x (S.getD j 0))) (finRow (muOf a.mean a.mu2h (adjOn a S x) j)) =
        finRow fun i => muOf a.mean a.mu1h x (S.getD j 0) i +
          vol a x (S.getD j 0) i * muOf a.mean a.mu2h (adjOn a S x) j i := by
      ext i
      simp [scaleMean, finRow, fin_mul, fin_add]
    simp only [bind, Except.bind, pure, Except.pure, hsm]
    by_cases hmean : a.mean = true
    · have h3 : meanOn a S x j = fun i => muOf a.mean a.mu1h x (S.getD j 0) i +
          vol a x (S.getD j 0) i * muOf a.mean a.mu2h (adjOn a S x) j i := by
        funext i; simp [meanOn, hmean]
      rw [h3, if_pos hmean]
    · have h3 : meanOn a S x j = fun _ => 0 := by
        funext i; simp [meanOn, hmean]
      rw [h3, if_neg hmean]
      rfl

/-- up to the division -/
theorem head_fin [Nonempty ι] {f : Frame τ ι XR} {a : RealArgs} (ha : a.Valid) {T : ℕ} (hT : 0 < T) {tm : ℕ → τ}
    (hd : DistinctTimes T tm) {x : ℕ → ι → ℝ} (hf : Represents f a.nanToNum T tm x) :
    iteratedEwmaPd f a.toArgs =
      (centerPd (clip (Frame.alignPd (· / ·) (finFrame T tm (cRet a x)) (finRows (rowsFrom a.minPeriodsVola T) tm (vol a x)))
        (a.clip.map fin)).fillna0 (fin a.mu2h) 0 a.mean).bind fun am =>
      (ewmaCov am.1 (fin a.covHalflife) a.minPeriodsCov).bind fun covs =>
      covs.mapM fun p => iewmaItem a.mean (finRows (rowsFrom a.minPeriodsVola T) tm (vol a x))
        (finFrame T tm (muOf a.mean a.mu1h x)) am.2 p.1 p.2 := by
  have hm1 : 0 < a.mu1h := orElse_pos ha.vola ha.mu1
  rw [iteratedEwmaPd_steps, represents_runPd hf]
  simp only [RealArgs.toArgs, truthy_getD]
  rw [show orElse a.muHalflife1 a.volaHalflife = a.mu1h from rfl,
    show orElse a.muHalflife2 a.covHalflife = a.mu2h from rfl]
  rw [centerPd_fin hm1 a.mean hT, center_fin hm1 a.mean hT hd]
  simp only [Except.bind]
  rw [volatility_truthy, truthy_clipAt]
  rw [volatility_fin ha.vola _ a.clip_ne hT]
  simp only []
  rw [show (fun t i => x t i - muOf a.mean a.mu1h x t i) = cRet a x from rfl]
  rw [show (fun t i => √(varSeq (betaOf a.volaHalflife) a.minPeriodsVola a.clip
      (fun k => (x k i - muOf a.mean a.mu1h x k i) ^ 2) t))
    = vol a x from by funext t i; unfold vol volSq; rw [decayOf_eq]; rfl]
  rw [clip_truthy, truthy_clipAt]

end CovPred
