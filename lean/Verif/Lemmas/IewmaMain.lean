import Verif.Lemmas.Iewma

/-
`iteratedEwma` on finite data, reduced to a computation with real numbers: the main lemma.
-/
set_option linter.unusedSectionVars false

namespace CovPred
open XR

variable {τ ι : Type} [DecidableEq τ] [Ix ι]

theorem RealArgs.clip_ne (a : RealArgs) : ∀ c ∈ a.clip, c ≠ 0 := by
  intro c hc
  unfold RealArgs.clip at hc
  split at hc
  · split at hc
    · cases hc
    · next h => cases hc; exact h
  · cases hc

theorem truthy_clipAt (a : RealArgs) : Scalar.truthy (a.clipAt.map fin) = a.clip.map fin := by
  unfold RealArgs.clip
  cases a.clipAt with
  | none => rfl
  | some c =>
    by_cases h : c = 0
    · subst h
      simp only [Option.map_some, Scalar.truthy, if_true]
      rw [if_pos ((isZero_fin 0).mpr rfl)]; rfl
    · simp only [Option.map_some, if_neg h]
      exact truthy_fin h

theorem truthy_truthy {α : Type} [Scalar α] (o : Option α) : Scalar.truthy (Scalar.truthy o) = Scalar.truthy o := by
  cases o with
  | none => rfl
  | some c =>
    by_cases h : Scalar.isZero c = true
    · simp [Scalar.truthy, h]
    · simp [Scalar.truthy, h]

theorem truthy_getD (o : Option ℝ) (d : ℝ) : (Scalar.truthy (o.map fin)).getD (fin d) = fin (orElse o d) := by
  cases o with
  | none => rfl
  | some c =>
    by_cases h : c = 0
    · subst h
      simp only [Option.map_some, Scalar.truthy, orElse, if_true]
      rw [if_pos ((isZero_fin 0).mpr rfl)]; rfl
    · simp only [Option.map_some, orElse, if_neg h]
      rw [truthy_fin h]; rfl

theorem orElse_pos {o : Option ℝ} {d : ℝ} (hd : 0 < d) (ho : ∀ h ∈ o, 0 ≤ h) : 0 < orElse o d := by
  unfold orElse
  cases o with
  | none => exact hd
  | some c =>
    by_cases h : c = 0
    · simp [h, hd]
    · simp only [if_neg h]; exact lt_of_le_of_ne (ho c rfl) (Ne.symm h)

theorem volatility_truthy {α : Type} [Scalar α] (f : Frame τ ι α) (h : α) (mv : Int) (c : Option α) :
    volatility f h mv c = volatility f h mv (Scalar.truthy c) := by
  simp only [volatility, truthy_truthy]

theorem clip_truthy {α : Type} [Scalar α] (f : Frame τ ι α) (c : Option α) :
    clip f c = clip f (Scalar.truthy c) := by
  simp only [clip, truthy_truthy]

/-! ### centring -/

theorem align_sub_fin [Nonempty ι] {T : ℕ} {tm : ℕ → τ} (hd : DistinctTimes T tm) (x m : ℕ → ι → ℝ) :
    Frame.dropnaAll (Frame.alignWith (· - ·) (finFrame T tm x) (finRows (rowsFrom 0 T) tm m)) =
      finFrame T tm fun t i => x t i - m t i := by
  have hmap : Frame.alignWith (· - ·) (finFrame T tm x) (finRows (rowsFrom 0 T) tm m) =
      finFrame T tm fun t i => x t i - m t i := by
    have hf : ∀ x : ℕ → ι → ℝ, finFrame T tm x = (List.range T).map fun t => (tm t, finRow (x t)) :=
      fun x => rfl
    unfold Frame.alignWith
    rw [hf, hf, List.map_map]
    apply List.map_congr_left
    intro t ht
    have ht' := List.mem_range.mp ht
    simp only [Function.comp]
    rw [loc_finRows hd m (fun k hk => rowsFrom_lt hk) ht', rowsFrom_zero, if_pos ht]
    congr 1
    ext i
    simp [finRow, fin_sub]
  rw [hmap]
  unfold Frame.dropnaAll
  rw [List.filter_eq_self]
  intro p hp
  unfold finFrame finRows at hp
  obtain ⟨k, _, rfl⟩ := List.mem_map.mp hp
  simp [all_isNaN_finRow]

theorem center_fin [Nonempty ι] {h : ℝ} (hh : 0 < h) (mean : Bool) {T : ℕ} (hT : 0 < T) {tm : ℕ → τ}
    (hd : DistinctTimes T tm) (x : ℕ → ι → ℝ) :
    center (finFrame T tm x) (fin h) 0 mean =
      .ok (finFrame T tm (fun t i => x t i - muOf mean h x t i), finFrame T tm (muOf mean h x)) := by
  unfold center
  cases mean with
  | true =>
    simp only [if_true]
    rw [ewmaMean_fin hh 0 hT]
    simp only [Except.map]
    rw [align_sub_fin hd]
    rw [rowsFrom_zero]
    have : muOf true h x = fun t i => emaAvg (betaOf h) (fun k => x k i) t := by
      funext t i; simp [muOf, halflifeAverage_eq]
    rw [this]
    rfl
  | false =>
    simp only [Bool.false_eq_true, if_false, muOf, sub_zero]
    congr 2
    unfold finFrame finRows Frame.mapVals
    rw [List.map_map]
    apply List.map_congr_left
    intro k _
    simp only [Function.comp]
    congr 1
    ext i
    simp [finRow, zero_def, fin_mul, muOf]

/-- centring with `min_periods` -/
theorem center_fin_mp [Nonempty ι] {h : ℝ} (hh : 0 < h) {mp : Int} {T : ℕ} (hT : 0 < T) {tm : ℕ → τ}
    (hd : DistinctTimes T tm) (x : ℕ → ι → ℝ) :
    center (finFrame T tm x) (fin h) mp true =
      .ok (finRows (rowsFrom mp T) tm (fun t i => x t i - emaAvg (betaOf h) (fun k => x k i) t),
        finRows (rowsFrom mp T) tm fun t i => emaAvg (betaOf h) (fun k => x k i) t) := by
  unfold center
  simp only [if_true]
  rw [ewmaMean_fin hh mp hT]
  simp only [Except.map]
  congr 2
  set m : ℕ → ι → ℝ := fun t i => emaAvg (betaOf h) (fun k => x k i) t
  have hmap : Frame.alignWith (· - ·) (finFrame T tm x) (finRows (rowsFrom mp T) tm m) =
      (List.range T).map fun t => (tm t, if t ∈ rowsFrom mp T then finRow (fun i => x t i - m t i)
        else Arr.ofFn fun _ => XR.nan) := by
    have hf : finFrame T tm x = (List.range T).map fun t => (tm t, finRow (x t)) := rfl
    unfold Frame.alignWith
    rw [hf, List.map_map]
    apply List.map_congr_left
    intro t ht
    have ht' := List.mem_range.mp ht
    simp only [Function.comp]
    rw [loc_finRows hd m (fun k hk => rowsFrom_lt hk) ht']
    by_cases hm : t ∈ rowsFrom mp T
    · rw [if_pos hm, if_pos hm]
      congr 1
      ext i
      simp [finRow, fin_sub]
    · rw [if_neg hm, if_neg hm]
      rfl
  rw [hmap]
  unfold Frame.dropnaAll finRows
  rw [List.filter_map]
  have hfil : (List.range T).filter ((fun p : τ × Arr ι XR => !p.2.all Scalar.isNaN) ∘ fun t => (tm t,
      if t ∈ rowsFrom mp T then finRow (fun i => x t i - m t i) else Arr.ofFn fun _ => XR.nan)) = rowsFrom mp T := by
    have e : rowsFrom mp T = (List.range T).filter fun t => decide (t ∈ rowsFrom mp T) := by
      conv_lhs => unfold rowsFrom
      apply List.filter_congr
      intro t ht
      simp only [rowsFrom, List.mem_filter, ht, true_and, decide_eq_decide]
      simp
    conv_rhs => rw [e]
    apply List.filter_congr
    intro t _
    simp only [Function.comp]
    by_cases hm : t ∈ rowsFrom mp T
    · rw [if_pos hm]; simp [all_isNaN_finRow, hm]
    · rw [if_neg hm]
      have : (Arr.ofFn fun _ : ι => XR.nan).all Scalar.isNaN = true := by
        rw [Arr.all_iff]; intro i; rw [Arr.get_ofFn]; rfl
      simp [this, hm]
  rw [hfil]
  apply List.map_congr_left
  intro t ht
  rw [if_pos ht]

/-! ### covariances -/

theorem outer_fin (z : ι → ℝ) : outer (finRow z) = finRow fun p : ι × ι => z p.1 * z p.2 := by
  ext p
  simp [outer, finRow, fin_mul]

theorem ewmaCov_fin [Nonempty ι] {h : ℝ} (hh : 0 < h) (mc : Int) {T : ℕ} (hT : 0 < T)
    (tm : ℕ → τ) (z : ℕ → ι → ℝ) :
    ewmaCov (finFrame T tm z) (fin h) mc =
      .ok (finRows (rowsFrom mc T) tm fun t (p : ι × ι) => emaAvg (betaOf h) (fun k => z k p.1 * z k p.2) t) := by
  unfold ewmaCov finFrame finRows
  rw [general_range (decay_fin hh.ne' none) _ _ _ _ _ hT]
  simp only [outer_fin, ewSeq_fin (betaOf_pos h) (betaOf_lt_one hh), Except.map]
  rw [filter_mask]
  rfl

/-! ### reindexing the surviving rows -/

theorem finRows_reindex (S : List ℕ) (tm : ℕ → τ) (a : ℕ → ι → ℝ) :
    finRows S tm a = finFrame S.length (fun j => tm (S.getD j 0)) (fun j => a (S.getD j 0)) := by
  unfold finFrame finRows
  apply List.ext_getElem
  · simp
  · intro n h1 h2
    have : n < S.length := by simpa using h1
    simp [this]

theorem liveRows_mem {mv : Int} {T : ℕ} {x s : ℕ → ι → ℝ} {t : ℕ} :
    t ∈ liveRows mv T x s ↔ t < T ∧ mv - 1 ≤ (t : Int) ∧ ∃ i, ¬ (s t i = 0 ∧ x t i = 0) := by
  simp [liveRows]

open Classical in
theorem live_eq_range {a : RealArgs} {T : ℕ} {x : ℕ → ι → ℝ}
    (h : ∀ t < T, a.minPeriodsVola - 1 ≤ (t : Int) ∧ ∃ i, ¬ (vol a x t i = 0 ∧ cRet a x t i = 0)) :
    live a T x = List.range T :=
  List.filter_eq_self.mpr fun t ht => decide_eq_true (h t (List.mem_range.mp ht))

theorem liveRows_nodup (mv : Int) (T : ℕ) (x s : ℕ → ι → ℝ) : (liveRows mv T x s).Nodup :=
  List.Nodup.filter _ List.nodup_range

theorem getD_lt {S : List ℕ} {j : ℕ} (hj : j < S.length) : S.getD j 0 = S[j] := by simp [hj]

theorem liveRows_getD_mem {S : List ℕ} {j : ℕ} (hj : j < S.length) : S.getD j 0 ∈ S := by
  rw [getD_lt hj]; exact List.getElem_mem hj

theorem distinct_reindex {T : ℕ} {tm : ℕ → τ} (hd : DistinctTimes T tm) {S : List ℕ} (hS : ∀ k ∈ S, k < T)
    (hn : S.Nodup) : DistinctTimes S.length fun j => tm (S.getD j 0) := by
  intro j k hj hk h
  have := hd _ _ (hS _ (liveRows_getD_mem hj)) (hS _ (liveRows_getD_mem hk)) h
  rw [getD_lt hj, getD_lt hk] at this
  exact (List.Nodup.getElem_inj_iff hn).mp this

/-! ### the whole computation -/

theorem decayOf_eq (h : ℝ) : decayOf h = betaOf h := by
  have := betaOf_pow h 1
  rw [pow_one] at this
  rw [this, decayOf]
  norm_num

theorem decayOf_pos (h : ℝ) : 0 < decayOf h := by rw [decayOf_eq]; exact betaOf_pos h
theorem decayOf_lt_one {h : ℝ} (hh : 0 < h) : decayOf h < 1 := by rw [decayOf_eq]; exact betaOf_lt_one hh

theorem emaAvg_nonneg {b : ℝ} (h0 : 0 < b) {x : ℕ → ℝ} {t : ℕ} (hx : ∀ k ≤ t, 0 ≤ x k) : 0 ≤ emaAvg b x t := by
  unfold emaAvg
  apply div_nonneg <;> apply Finset.sum_nonneg
  · intro k hk
    exact mul_nonneg (pow_nonneg h0.le _) (hx k (by have := Finset.mem_range.mp hk; omega))
  · intro k _; exact pow_nonneg h0.le _

theorem covAt_self_nonneg (a : RealArgs) (T : ℕ) (x : ℕ → ι → ℝ) (j : ℕ) (i : ι) :
    0 ≤ covAt a T x j (i, i) := by
  unfold covAt
  rw [halflifeAverage_eq]
  exact emaAvg_nonneg (betaOf_pos _) fun k _ => mul_self_nonneg _

open Classical in
theorem scaleCov_fin (s : ι → ℝ) (M : ι × ι → ℝ) (hM : ∀ i, 0 ≤ M (i, i)) :
    scaleCov (finRow s) (finRow M) = Arr.ofFn fun p =>
      if M (p.1, p.1) = 0 ∨ M (p.2, p.2) = 0 then XR.nan
      else XR.fin (s p.1 * s p.2 * (M p / (Real.sqrt (M (p.1, p.1)) * Real.sqrt (M (p.2, p.2))))) := by
  ext p
  obtain ⟨i, j⟩ := p
  simp only [scaleCov, toCorrelation, finRow, Arr.get_ofFn, isZero_fin, nan_def]
  by_cases hi : M (i, i) = 0
  · simp [hi]
  · by_cases hj : M (j, j) = 0
    · simp [hi, hj]
    · have si : Real.sqrt (M (i, i)) ≠ 0 := fun h => hi ((Real.sqrt_eq_zero (hM i)).mp h)
      have sj : Real.sqrt (M (j, j)) ≠ 0 := fun h => hj ((Real.sqrt_eq_zero (hM j)).mp h)
      simp only [hi, hj, if_false, or_self]
      rw [fin_sqrt (hM i), fin_sqrt (hM j), one_def, fin_div si, fin_div sj]
      simp only [fin_mul, fin_inj]
      field_simp

theorem volSq_nonneg {a : RealArgs} (ha : a.Valid) (x : ℕ → ι → ℝ) (t : ℕ) (i : ι) : 0 ≤ volSq a x t i :=
  varSeq_nonneg (decayOf_pos _) (decayOf_lt_one ha.vola) _ _ (fun _ => sq_nonneg _) _

theorem vol_eq_zero {a : RealArgs} (ha : a.Valid) (x : ℕ → ι → ℝ) (t : ℕ) (i : ι) :
    vol a x t i = 0 ↔ volSq a x t i = 0 := by
  unfold vol; exact Real.sqrt_eq_zero (volSq_nonneg ha x t i)

theorem vol_zero_ret {a : RealArgs} (ha : a.Valid) (x : ℕ → ι → ℝ) (hc : a.clip = none) (t : ℕ) (i : ι)
    (hz : vol a x t i = 0) : cRet a x t i = 0 := by
  rw [vol_eq_zero ha] at hz
  unfold volSq at hz
  rw [hc] at hz
  exact pow_eq_zero_iff (two_ne_zero) |>.mp
    (varSeq_none_zero (decayOf_pos _) (decayOf_lt_one ha.vola) _ (fun k => sq_nonneg (cRet a x k i)) t hz)

theorem hasNaN_finFrame (T : ℕ) (tm : ℕ → τ) (x : ℕ → ι → ℝ) : (finFrame T tm x).hasNaN = false := by
  unfold Frame.hasNaN
  rw [List.any_eq_false]
  intro p hp
  unfold finFrame finRows at hp
  obtain ⟨k, _, rfl⟩ := List.mem_map.mp hp
  have : (finRow (x k)).all (fun y => !Scalar.isNaN y) = true := by
    rw [Arr.all_iff]; intro i; simp [finRow]
  rw [this]; decide

theorem mapM_ok {A B E : Type} (f : A → Except E B) (g : A → B) (l : List A) (h : ∀ x ∈ l, f x = .ok (g x)) :
    l.mapM f = .ok (l.map g) := by
  induction l with
  | nil => rfl
  | cons x l ih =>
    rw [List.mapM_cons, h x (by simp), ih (fun y hy => h y (by simp [hy]))]
    rfl

theorem iteratedEwma_fin_pos [Nonempty ι] {a : RealArgs} (ha : a.Valid) {T : ℕ} (hT : 0 < T) {tm : ℕ → τ}
    (hd : DistinctTimes T tm) (x : ℕ → ι → ℝ) :
    iteratedEwma (finFrame T tm x) a.toArgs =
      if live a T x = [] then .error .indexError
      else .ok ((rowsFrom a.minPeriodsCov (live a T x).length).map (itemAt a T tm x)) := by
  have hm1 : 0 < a.mu1h := orElse_pos ha.vola ha.mu1
  have hm2 : 0 < a.mu2h := orElse_pos ha.cov ha.mu2
  unfold iteratedEwma
  simp only [RealArgs.toArgs, truthy_getD, hasNaN_finFrame, Bool.false_eq_true, if_false, ite_self]
  rw [show orElse a.muHalflife1 a.volaHalflife = a.mu1h from rfl,
    show orElse a.muHalflife2 a.covHalflife = a.mu2h from rfl]
  rw [center_fin hm1 a.mean hT hd]
  simp only [bind, Except.bind]
  rw [volatility_truthy, truthy_clipAt]
  rw [volatility_fin ha.vola _ a.clip_ne hT]
  simp only []
  have hz := fun h => vol_zero_ret ha x h
  have hadj := adj_fin a.minPeriodsVola a.clip_ne hd (cRet a x) (vol a x) hz
  rw [show (fun t i => x t i - muOf a.mean a.mu1h x t i) = cRet a x from rfl]
  rw [show (fun t i => √(varSeq (betaOf a.volaHalflife) a.minPeriodsVola a.clip
      (fun k => (x k i - muOf a.mean a.mu1h x k i) ^ 2) t))
    = vol a x from by funext t i; unfold vol volSq; rw [decayOf_eq]; rfl]
  rw [clip_truthy, truthy_clipAt, hadj]
  rw [show liveRows a.minPeriodsVola T (cRet a x) (vol a x) = live a T x from rfl, finRows_reindex]
  by_cases hS : live a T x = []
  · rw [if_pos hS, hS]
    simp only [List.length_nil]
    have hnil : ∀ (tm : ℕ → τ) (y : ℕ → ι → ℝ), finFrame 0 tm y = [] := fun _ _ => rfl
    rw [hnil]
    have hg : ∀ (h : ℝ) (hh : 0 < h) (κ : Type) [Ix κ] (fct : Arr ι XR → Arr κ XR) (mp : Int),
        general ([] : Frame τ ι XR) (some (fin h)) none fct mp none = .error .indexError := by
      intro h hh κ _ fct mp
      unfold general; rw [decay_fin hh.ne' none]
    cases hmean : a.mean with
    | true =>
      simp only [center, if_true, ewmaMean, hg _ hm2, Except.map]
    | false =>
      simp only [center, Bool.false_eq_true, if_false, ewmaCov, hg _ ha.cov, Except.map]
  · rw [if_neg hS]
    have hlen : 0 < (live a T x).length := List.length_pos_of_ne_nil hS
    have hSlt : ∀ k ∈ live a T x, k < T := fun k hk => (liveRows_mem.mp hk).1
    have hd' := distinct_reindex hd hSlt (liveRows_nodup _ _ _ _)
    rw [center_fin hm2 a.mean hlen hd']
    simp only []
    rw [show (fun (t : ℕ) (i : ι) => adjReal a.clip (cRet a x ((live a T x).getD t 0) i)
        (vol a x ((live a T x).getD t 0) i)) = adjAt a T x from rfl]
    rw [show (fun (t : ℕ) (i : ι) => adjReal a.clip (cRet a x ((live a T x).getD t 0) i)
        (vol a x ((live a T x).getD t 0) i) - muOf a.mean a.mu2h (adjAt a T x) t i) = zAt a T x from rfl]
    rw [ewmaCov_fin ha.cov _ hlen]
    rw [show (fun (t : ℕ) (p : ι × ι) => emaAvg (betaOf a.covHalflife)
        (fun k => zAt a T x k p.1 * zAt a T x k p.2) t) = covAt a T x from by
      funext t p; unfold covAt; rw [halflifeAverage_eq]]
    simp only []
    unfold finRows
    rw [List.mapM_map]
    apply mapM_ok
    intro j hj
    have hj' := rowsFrom_lt hj
    have hmem := liveRows_getD_mem hj'
    obtain ⟨hlt, hge, _⟩ := liveRows_mem.mp hmem
    have hv : locE (finRows (rowsFrom a.minPeriodsVola T) tm (vol a x)) (tm ((live a T x).getD j 0)) =
        .ok (finRow (vol a x ((live a T x).getD j 0))) := by
      unfold locE
      rw [loc_finRows hd _ (fun k hk => rowsFrom_lt hk) hlt, if_pos (mem_rowsFrom.mpr ⟨hlt, hge⟩)]
    have h1 : locE (finFrame T tm (muOf a.mean a.mu1h x)) (tm ((live a T x).getD j 0)) =
        .ok (finRow (muOf a.mean a.mu1h x ((live a T x).getD j 0))) := by
      unfold locE finFrame
      rw [loc_finRows hd _ (fun k hk => List.mem_range.mp hk) hlt, if_pos (List.mem_range.mpr hlt)]
    have h2 : locE (finFrame (live a T x).length (fun j => tm ((live a T x).getD j 0))
          (muOf a.mean a.mu2h (adjAt a T x))) (tm ((live a T x).getD j 0)) =
        .ok (finRow (muOf a.mean a.mu2h (adjAt a T x) j)) := by
      unfold locE finFrame
      rw [loc_finRows (t := j) hd' _ (fun k hk => List.mem_range.mp hk) hj', if_pos (List.mem_range.mpr hj')]
    show iewmaItem a.mean (finRows (rowsFrom a.minPeriodsVola T) tm (vol a x)) (finFrame T tm (muOf a.mean a.mu1h x))
      (finFrame (live a T x).length (fun j => tm ((live a T x).getD j 0)) (muOf a.mean a.mu2h (adjAt a T x)))
      (tm ((live a T x).getD j 0)) (finRow (covAt a T x j)) = .ok (itemAt a T tm x j)
    have hcov := scaleCov_fin (vol a x ((live a T x).getD j 0)) (covAt a T x j) (covAt_self_nonneg a T x j)
    unfold iewmaItem itemAt
    rw [show Arr.ofFn (sigmaAt a T x j) = _ from hcov.symm]
    rw [hv, h1, h2]
    have hsm : scaleMean (finRow (vol a x ((live a T x).getD j 0)))
        (finRow (muOf a.mean a.mu1h x ((live a T x).getD j 0))) (finRow (muOf a.mean a.mu2h (adjAt a T x) j)) =
        finRow fun i => muOf a.mean a.mu1h x ((live a T x).getD j 0) i +
          vol a x ((live a T x).getD j 0) i * muOf a.mean a.mu2h (adjAt a T x) j i := by
      ext i
      simp [scaleMean, finRow, fin_mul, fin_add]
    simp only [bind, Except.bind, pure, Except.pure, hsm]
    by_cases hmean : a.mean = true
    · have h3 : meanAt a T x j = fun i => muOf a.mean a.mu1h x ((live a T x).getD j 0) i +
          vol a x ((live a T x).getD j 0) i * muOf a.mean a.mu2h (adjAt a T x) j i := by
        funext i; simp [meanAt, hmean]
      rw [h3, if_pos hmean]
    · have h3 : meanAt a T x j = fun _ => 0 := by
        funext i; simp [meanAt, hmean]
      rw [h3, if_neg hmean]
      rfl

theorem general_nil {κ : Type} [Ix κ] {h : ℝ} (hh : 0 < h) (al : Option XR) (fct : Arr ι XR → Arr κ XR) (mp : Int)
    (c : Option XR) :
    general ([] : Frame τ ι XR) (some (fin h)) al fct mp c = .error .indexError := by
  unfold general; rw [decay_fin hh.ne' al]

theorem iteratedEwma_nil {a : RealArgs} (ha : a.Valid) :
    iteratedEwma ([] : Frame τ ι XR) a.toArgs = .error .indexError := by
  have hm1 : 0 < a.mu1h := orElse_pos ha.vola ha.mu1
  unfold iteratedEwma
  simp only [RealArgs.toArgs, truthy_getD]
  rw [show orElse a.muHalflife1 a.volaHalflife = a.mu1h from rfl]
  have h1 : (Frame.hasNaN ([] : Frame τ ι XR)) = false := rfl
  simp only [h1, Bool.false_eq_true, if_false, ite_self]
  unfold center
  by_cases hm : a.mean = true
  · simp only [hm, if_true, ewmaMean, general_nil hm1, Except.map, bind, Except.bind]
  · simp only [hm, bind, Except.bind, volatility, variance, ewmaMean, Bool.false_eq_true, if_false]
    rw [show Frame.mapVals (fun x => Scalar.npow x 2) ([] : Frame τ ι XR) = [] from rfl]
    simp only [general_nil ha.vola, Except.map]

/-- `iterated_ewma` on finite data -/
theorem iteratedEwma_fin [Nonempty ι] {a : RealArgs} (ha : a.Valid) {T : ℕ} {tm : ℕ → τ}
    (hd : DistinctTimes T tm) (x : ℕ → ι → ℝ) :
    iteratedEwma (finFrame T tm x) a.toArgs =
      if live a T x = [] then .error .indexError
      else .ok ((rowsFrom a.minPeriodsCov (live a T x).length).map (itemAt a T tm x)) := by
  rcases Nat.eq_zero_or_pos T with h | h
  · subst h
    rw [if_pos (show live a 0 x = [] from rfl)]
    exact iteratedEwma_nil ha
  · exact iteratedEwma_fin_pos ha h hd x

/-! ### `nan` entries -/

theorem fillna0_eq_self (f : Frame τ ι XR) (h : f.hasNaN = false) : f.fillna0 = f := by
  unfold Frame.fillna0 Frame.mapVals
  conv_rhs => rw [← List.map_id f]
  apply List.map_congr_left
  intro p hp
  obtain ⟨t, r⟩ := p
  simp only [id]
  congr 1
  ext i
  unfold Frame.hasNaN at h
  rw [List.any_eq_false] at h
  have h := h _ hp
  simp only [Bool.not_eq_true', Bool.not_eq_false] at h
  have := (Arr.all_iff _ _).mp h i
  simp only [Bool.not_eq_true'] at this
  simp [this]

theorem hasNaN_fillna0 (f : Frame τ ι XR) : f.fillna0.hasNaN = false := by
  unfold Frame.hasNaN Frame.fillna0 Frame.mapVals
  rw [List.any_eq_false]
  intro p hp
  obtain ⟨q, _, rfl⟩ := List.mem_map.mp hp
  simp only [Bool.not_eq_true', Bool.not_eq_false]
  rw [Arr.all_iff]
  intro i
  rw [Arr.get_map]
  by_cases h : Scalar.isNaN (q.2 i) = true
  · simp [h, zero_def]
  · simp [h]

theorem iteratedEwma_fillna0 (f : Frame τ ι XR) (a : IewmaArgs XR) (h : a.nanToNum = true) (b : Bool) :
    iteratedEwma f a = iteratedEwma f.fillna0 { a with nanToNum := b } := by
  have h1 : (if a.nanToNum then (if f.hasNaN then f.fillna0 else f) else f) = f.fillna0 := by
    rw [if_pos h]
    by_cases hn : f.hasNaN = true
    · rw [if_pos hn]
    · rw [if_neg hn, fillna0_eq_self f (by simpa using hn)]
  have h2 : (if b then (if f.fillna0.hasNaN then f.fillna0.fillna0 else f.fillna0) else f.fillna0) = f.fillna0 := by
    rw [hasNaN_fillna0]; simp
  unfold iteratedEwma
  simp only [h1, h2]

theorem represents_run {f : Frame τ ι XR} {a : RealArgs} {T : ℕ} {tm : ℕ → τ} {x : ℕ → ι → ℝ}
    (hf : Represents f a.nanToNum T tm x) :
    iteratedEwma f a.toArgs = iteratedEwma (finFrame T tm x) a.toArgs := by
  obtain ⟨R, rfl, hR⟩ := hf
  by_cases hb : a.nanToNum = true
  · rw [iteratedEwma_fillna0 _ _ hb a.nanToNum]
    have : Frame.fillna0 ((List.range T).map fun t => (tm t, R t)) = finFrame T tm x := by
      unfold Frame.fillna0 Frame.mapVals finFrame finRows
      rw [List.map_map]
      apply List.map_congr_left
      intro t ht
      simp only [Function.comp]
      congr 1
      ext i
      rw [Arr.get_map]
      rcases hR t (List.mem_range.mp ht) i with h | ⟨_, h, h0⟩
      · rw [h]; simp [finRow]
      · rw [h]; simp [finRow, h0, zero_def]
    rw [this]
    rfl
  · have : ((List.range T).map fun t => (tm t, R t)) = finFrame T tm x := by
      unfold finFrame finRows
      apply List.map_congr_left
      intro t ht
      congr 1
      ext i
      rcases hR t (List.mem_range.mp ht) i with h | ⟨h, _⟩
      · rw [h]; simp [finRow]
      · exact absurd h hb
    rw [this]

/-- `iterated_ewma` on data without infinities -/
theorem iteratedEwma_spec [Nonempty ι] {f : Frame τ ι XR} {a : RealArgs} (ha : a.Valid) {T : ℕ} {tm : ℕ → τ}
    (hd : DistinctTimes T tm) {x : ℕ → ι → ℝ} (hf : Represents f a.nanToNum T tm x) :
    iteratedEwma f a.toArgs =
      if live a T x = [] then .error .indexError
      else .ok ((rowsFrom a.minPeriodsCov (live a T x).length).map (itemAt a T tm x)) := by
  rw [represents_run hf, iteratedEwma_fin ha hd]

end CovPred
