import Verif.Spec.ReturnsContinuity
import Verif.Spec.RoundedMethod
import Verif.Lemmas.IewmaContinuity
import Verif.Props.Continuity
import Verif.Props.EndToEnd

/-
Property C194: the whole method depends continuously on the returns (ewma.py:88-183, combination.py:103-266).
-/
set_option linter.unusedSectionVars false
namespace CovPred
open Filter XR

variable {τ : Type} [LinearOrder τ] {n : ℕ} {L : Type} [DecidableEq L]

theorem represents_close {f f' : Frame τ (Fin n) XR} {b : Bool} {T : ℕ} {tm : ℕ → τ} {x : ℕ → Fin n → ℝ} {d : ℝ} (hd : 0 ≤ d)
    (hf : Represents f b T tm x) (h : Frame.CloseBy d f f') :
    ∃ x', Represents f' b T tm x' ∧ (∀ t < T, ∀ i, |x' t i - x t i| ≤ d) ∧
      ∀ t, (∃ row, (t, row) ∈ f' ∧ ∃ i, row i = nan) ↔ ∃ row, (t, row) ∈ f ∧ ∃ i, row i = nan := by
  obtain ⟨R, rfl, hR⟩ := hf
  have hlen : f'.length = T := by have := h.length_eq; simpa using this.symm
  have hget : ∀ t (ht : t < T), (f'[t]'(by omega)).1 = tm t ∧ ∀ i, (R t i = nan ∧ (f'[t]'(by omega)).2 i = nan) ∨
      ∃ v v', R t i = fin v ∧ (f'[t]'(by omega)).2 i = fin v' ∧ |v' - v| ≤ d := fun t ht => by
    have := List.forall₂_iff_get.1 h |>.2 t (by simpa using ht) (by omega)
    simpa using this
  let R' : ℕ → Arr (Fin n) XR := fun t => if ht : t < f'.length then (f'[t]).2 else R t
  have hR' : ∀ t (ht : t < T), R' t = (f'[t]'(by omega)).2 := fun t ht => dif_pos (by omega)
  have hfe : f' = (List.range T).map fun t => (tm t, R' t) := by
    refine List.ext_getElem (by simp [hlen]) fun t h1 h2 => ?_
    have ht : t < T := by omega
    rw [List.getElem_map, List.getElem_range, hR' t ht, ← (hget t ht).1]
  refine ⟨fun t i => (R' t i).toReal, ⟨R', hfe, fun t ht i => ?_⟩, fun t ht i => ?_, fun t => ?_⟩
  · dsimp only
    rw [hR' t ht]
    rcases (hget t ht).2 i with ⟨e1, e2⟩ | ⟨v, v', e1, e2, _⟩
    · rcases hR t ht i with e3 | ⟨e3, e4, e5⟩
      · rw [e1] at e3; cases e3
      · exact Or.inr ⟨e3, e2, by rw [e2]; rfl⟩
    · exact Or.inl (by rw [e2]; rfl)
  · dsimp only
    rw [hR' t ht]
    rcases (hget t ht).2 i with ⟨e1, e2⟩ | ⟨v, v', e1, e2, e3⟩
    · rcases hR t ht i with e3 | ⟨e3, e4, e5⟩
      · rw [e1] at e3; cases e3
      · rw [e2, e5]; simpa [toReal] using hd
    · rcases hR t ht i with e4 | ⟨_, e4, _⟩
      · rw [e1] at e4; cases e4
        rw [e2]; exact e3
      · rw [e1] at e4; cases e4
  · rw [hfe]
    constructor
    · rintro ⟨row, hrow, i, hi⟩
      obtain ⟨s, hs, e⟩ := List.mem_map.1 hrow
      rw [List.mem_range] at hs
      cases e
      refine ⟨R s, List.mem_map.2 ⟨s, List.mem_range.2 hs, rfl⟩, i, ?_⟩
      rw [hR' s hs] at hi
      rcases (hget s hs).2 i with ⟨e1, _⟩ | ⟨v, v', _, e2, _⟩
      · exact e1
      · rw [hi] at e2; cases e2
    · rintro ⟨row, hrow, i, hi⟩
      obtain ⟨s, hs, e⟩ := List.mem_map.1 hrow
      rw [List.mem_range] at hs
      cases e
      refine ⟨R' s, List.mem_map.2 ⟨s, List.mem_range.2 hs, rfl⟩, i, ?_⟩
      rw [hR' s hs]
      rcases (hget s hs).2 i with ⟨_, e1⟩ | ⟨v, v', e2, _, _⟩
      · exact e1
      · rw [hi] at e2; cases e2

private theorem tendsto_of_le {f : ℕ → ℝ} {a : ℝ} (h : ∀ m : ℕ, |f m - a| ≤ 1 / ((m : ℝ) + 1)) : Tendsto f atTop (nhds a) := by
  rw [tendsto_iff_dist_tendsto_zero]
  refine squeeze_zero (fun m => dist_nonneg) (fun m => ?_) tendsto_one_div_add_atTop_nhds_zero_nat
  rw [Real.dist_eq]
  exact h m

private theorem near_eventually {g : ℕ → ℝ} {v e : ℝ} (h : Tendsto g atTop (nhds v)) (he : 0 < e) : ∀ᶠ m in atTop, |g m - v| < e :=
  (Metric.tendsto_nhds.1 h e he).mono fun m hm => by rwa [Real.dist_eq] at hm

/-- **C194.** `iterated_ewma` depends continuously on the returns wherever all volatilities in use are positive and the covariances are numbers,
with or without means, winsorisation and missing entries. -/
theorem C194_iterated_ewma (hn : 0 < n) {f : Frame τ (Fin n) XR} {a : RealArgs} (ha : a.Valid) {T : ℕ} {tm : ℕ → τ} (hd : DistinctTimes T tm)
    {x : ℕ → Fin n → ℝ} (hf : Represents f a.nanToNum T tm x)
    (hvol : ∀ t, t < T → a.minPeriodsVola - 1 ≤ (t : Int) → ∀ i, 0 < vol a x t i)
    {rs : List (IEWMA τ (Fin n) XR)} (hrs : iteratedEwma f a.toArgs = .ok rs) (hfin : ∀ r ∈ rs, ∀ p, ∃ v, r.covariance p = fin v)
    (e : ℝ) (he : 0 < e) :
    ∃ d, 0 < d ∧ ∀ f', Frame.CloseBy d f f' → ∃ rs', iteratedEwma f' a.toArgs = .ok rs' ∧ List.Forall₂ (IEWMA.Within e) rs rs' := by
  have : Nonempty (Fin n) := ⟨⟨0, hn⟩⟩
  obtain ⟨hlive, hrows⟩ := results_of_ok ha hd hf hrs
  have hdiag : ∀ j ∈ rowsFrom a.minPeriodsCov (live a T x).length, ∀ i, covAt a T x j (i, i) ≠ 0 := fun j hj i h0 => by
    obtain ⟨v, hv⟩ := hfin (itemAt a T tm x j) (by rw [hrows]; exact List.mem_map.2 ⟨j, hj, rfl⟩) (i, i)
    simp only [itemAt, Arr.get_ofFn, sigmaAt] at hv
    rw [if_pos (Or.inl h0)] at hv
    cases hv
  by_contra hcon
  push Not at hcon
  have hpos : ∀ m : ℕ, (0 : ℝ) < 1 / ((m : ℝ) + 1) := fun m => Nat.one_div_pos_of_nat
  choose F hF hbad using fun m : ℕ => hcon (1 / ((m : ℝ) + 1)) (hpos m)
  choose X hrep hX _ using fun m => represents_close (hpos m).le hf (hF m)
  have hA : Approach atTop a T X x := ⟨fun t ht i => tendsto_of_le fun m => hX m t ht i, hvol⟩
  have hmem : ∀ j ∈ (rowsFrom a.minPeriodsCov (live a T x).length).toFinset, j < (live a T x).length := fun j hj =>
    (mem_rowsFrom.1 (List.mem_toFinset.1 hj)).1
  have key : ∀ᶠ m in atTop, ∀ j ∈ (rowsFrom a.minPeriodsCov (live a T x).length).toFinset,
      (∀ i, |meanAt a T (X m) j i - meanAt a T x j i| < e) ∧ (∀ p, NearNumbers e (sigmaAt a T x j p) (sigmaAt a T (X m) j p)) ∧
      ∀ i, |vol a (X m) ((live a T (X m)).getD j 0) i - vol a x ((live a T x).getD j 0) i| < e := by
    rw [Filter.eventually_all_finset]
    intro j hj
    have hjl := hmem j hj
    refine (eventually_all.2 fun i => near_eventually (hA.mean hjl i) he).and (Filter.Eventually.and ?_
      (eventually_all.2 fun i => near_eventually (hA.volAt hjl i) he))
    refine eventually_all.2 fun p => ?_
    have hj' := hdiag j (List.mem_toFinset.1 hj)
    obtain ⟨g, v, h1, h2, h3⟩ := hA.sigma hjl p (hj' _) (hj' _)
    exact (h2.and (near_eventually h3 he)).mono fun m hm => ⟨v, g m, h1, hm.1, hm.2⟩
  obtain ⟨m, hm, hl⟩ := (key.and hA.live).exists
  have hrun := iteratedEwma_spec ha hd (hrep m)
  rw [hl, if_neg hlive] at hrun
  refine hbad m _ hrun ?_
  rw [hrows, List.forall₂_map_left_iff, List.forall₂_map_right_iff]
  refine List.forall₂_same.2 fun j hj => ?_
  obtain ⟨h1, h2, h3⟩ := hm j (List.mem_toFinset.2 hj)
  exact ⟨by simp [itemAt, hl], fun i => ⟨_, _, by simp [itemAt, finRow], by simp [itemAt, finRow], h1 i⟩,
    fun p => by simpa [itemAt] using h2 p, fun i => ⟨_, _, by simp [itemAt, finRow], by simp [itemAt, finRow], h3 i⟩⟩

private theorem exists_lower {A : Type} [Finite A] (f : A → ℝ) (hf : ∀ a, 0 < f a) : ∃ m, 0 < m ∧ ∀ a, m ≤ f a := by
  rcases isEmpty_or_nonempty A with h | h
  · exact ⟨1, one_pos, fun a => (h.false a).elim⟩
  · obtain ⟨a, ha⟩ := Finite.exists_min f
    exact ⟨f a, hf a, ha⟩

theorem Frame.CloseBy.mono {d d' : ℝ} {f f' : Frame τ (Fin n) XR} (h : Frame.CloseBy d f f') (hd : d ≤ d') : Frame.CloseBy d' f f' :=
  List.Forall₂.imp (fun _ _ hp => ⟨hp.1, fun i => (hp.2 i).imp_right fun ⟨v, v', h1, h2, h3⟩ => ⟨v, v', h1, h2, h3.trans hd⟩⟩) h

theorem within_mono {e e' : ℝ} {r r' : IEWMA τ (Fin n) XR} (h : r.Within e r') (he : e ≤ e') : r.Within e' r' := by
  have hm : ∀ {u u' : XR}, NearNumbers e u u' → NearNumbers e' u u' := fun ⟨v, v', h1, h2, h3⟩ => ⟨v, v', h1, h2, h3.trans_le he⟩
  exact ⟨h.time, fun i => hm (h.mean i), fun p => hm (h.covariance p), fun i => hm (h.volatility i)⟩

/-- success alone needs positive volatilities only -/
private theorem run_near (hn : 0 < n) {f : Frame τ (Fin n) XR} {a : RealArgs} (ha : a.Valid) {T : ℕ} {tm : ℕ → τ} (hd : DistinctTimes T tm)
    {x : ℕ → Fin n → ℝ} (hf : Represents f a.nanToNum T tm x)
    (hvol : ∀ t, t < T → a.minPeriodsVola - 1 ≤ (t : Int) → ∀ i, 0 < vol a x t i)
    {rs : List (IEWMA τ (Fin n) XR)} (hrs : iteratedEwma f a.toArgs = .ok rs) :
    ∃ d, 0 < d ∧ ∀ f', Frame.CloseBy d f f' → ∃ rs', iteratedEwma f' a.toArgs = .ok rs' := by
  have : Nonempty (Fin n) := ⟨⟨0, hn⟩⟩
  obtain ⟨hlive, hrows⟩ := results_of_ok ha hd hf hrs
  by_contra hcon
  push Not at hcon
  have hpos : ∀ m : ℕ, (0 : ℝ) < 1 / ((m : ℝ) + 1) := fun m => Nat.one_div_pos_of_nat
  choose F hF hbad using fun m : ℕ => hcon (1 / ((m : ℝ) + 1)) (hpos m)
  choose X hrep hX _ using fun m => represents_close (hpos m).le hf (hF m)
  have hA : Approach atTop a T X x := ⟨fun t ht i => tendsto_of_le fun m => hX m t ht i, hvol⟩
  obtain ⟨m, hl⟩ := hA.live.exists
  have hrun := iteratedEwma_spec ha hd (hrep m)
  rw [hl, if_neg hlive] at hrun
  exact hbad m _ hrun

/-- covariances stay positive definite -/
private theorem expert_near (hn : 0 < n) {f : Frame τ (Fin n) XR} {a : RealArgs} (ha : a.Valid) {T : ℕ} {tm : ℕ → τ} (hd : DistinctTimes T tm)
    {x : ℕ → Fin n → ℝ} (hf : Represents f a.nanToNum T tm x)
    (hvol : ∀ t, t < T → a.minPeriodsVola - 1 ≤ (t : Int) → ∀ i, 0 < vol a x t i)
    {rs : List (IEWMA τ (Fin n) XR)} (hrs : iteratedEwma f a.toArgs = .ok rs) (hgood : ∀ r ∈ rs, GoodCov r)
    (e : ℝ) (he : 0 < e) :
    ∃ d, 0 < d ∧ ∀ f', Frame.CloseBy d f f' → ∃ rs', iteratedEwma f' a.toArgs = .ok rs' ∧ List.Forall₂ (IEWMA.Within e) rs rs' ∧
      ∀ r ∈ rs', GoodCov r := by
  have : Nonempty (Fin n) := ⟨⟨0, hn⟩⟩
  have htr : ∀ r ∈ rs, 0 ≤ ∑ k, (realCov r)⁻¹ k k := fun r hr => Finset.sum_nonneg fun k _ => (coord_le (hgood r hr).posDef 0 k).1.le
  obtain ⟨e1, he1, hle⟩ := exists_lower (fun k : Fin rs.length => 1 / (2 * (((n : ℝ) + 1) * (1 + ∑ q, (realCov rs[k.1])⁻¹ q q)))) fun k => by
    have := htr rs[k.1] (List.getElem_mem k.2)
    positivity
  obtain ⟨d, hd0, h⟩ := C194_iterated_ewma hn ha hd hf hvol hrs (fun r hr => (hgood r hr).finite) (min e e1) (lt_min he he1)
  refine ⟨d, hd0, fun f' hf' => ?_⟩
  obtain ⟨rs', hrs', hw⟩ := h f' hf'
  refine ⟨rs', hrs', hw.imp fun r r' hr => within_mono hr (min_le_left _ _), fun r' hr' => ?_⟩
  obtain ⟨t, ht, rfl⟩ := List.getElem_of_mem hr'
  have ht' : t < rs.length := by rw [hw.length_eq]; exact ht
  have hwt := List.forall₂_iff_get.1 hw |>.2 t ht' ht
  simp only [List.get_eq_getElem] at hwt
  obtain ⟨x', hrep, _⟩ := represents_close hd0.le hf hf'
  obtain ⟨j, _, _, hj⟩ := item_of_mem ha hd hrep hrs' hr'
  have hsym : (realCov rs'[t]).transpose = realCov rs'[t] := by rw [hj]; exact realCov_symm _ _ _ _ _
  refine ⟨fun p => ?_, posDef_of_close (d := e1) (hgood rs[t] (List.getElem_mem ht')).posDef hsym ?_ he1.le fun i k => ?_⟩
  · obtain ⟨_, v', _, h2, _⟩ := hwt.covariance p
    exact ⟨v', h2⟩
  · have h1 := htr rs[t] (List.getElem_mem ht')
    have h2 := hle ⟨t, ht'⟩
    dsimp only at h2
    rw [le_div_iff₀ (by positivity)] at h2
    have h3 : 0 ≤ e1 * (1 + ∑ q, (realCov rs[t])⁻¹ q q) := by positivity
    have hn0 : (0 : ℝ) ≤ n := Nat.cast_nonneg n
    nlinarith
  · obtain ⟨v, v', h1, h2, h3⟩ := hwt.covariance (i, k)
    simp only [realCov, Matrix.of_apply, h1, h2, toReal]
    exact (h3.trans_le (min_le_right _ _)).le

/-- **C194.** The whole method depends continuously on the returns. Let `from_ewmas` succeed, all volatilities in use being positive (missing
entries, winsorisation and means allowed). For every window and every `e > 0` there is `d > 0` such that for every table with the same times and
the same missing entries whose other entries are within `d`: `from_ewmas` succeeds with the same labels, and every request that succeeds with the
given table succeeds with the other one, with results within `e`. -/
theorem C194_from_ewmas (hn : 0 < n) (label : XR × XR → L) {f : Frame τ (Fin n) XR} {T : ℕ} {tm : ℕ → τ}
    (htm : ∀ s t, s < t → t < T → tm s < tm t) {x : ℕ → Fin n → ℝ} (hf : Represents f true T tm x) {pairs : List (ℝ × ℝ)}
    (hp : PosPairs pairs) (hne : pairs ≠ []) (mv mc : Int) (clipAt : Option ℝ) (mean : Bool) {c : EwmaComb L τ n}
    (h : callEwmas label f pairs mv mc clipAt mean = .ok c)
    (hvol : ∀ p ∈ pairs, ∀ t, t < T → mv - 1 ≤ (t : Int) → ∀ i, 0 < vol (ewmasArgs mv mc clipAt mean p) x t i)
    {p : ℝ × ℝ} (hpp : LastPair label pairs p) {rs : List (IEWMA τ (Fin n) XR)}
    (hrs : iteratedEwma f (ewmasArgs mv mc clipAt mean p).toArgs = .ok rs) (hlong : 2 ≤ rs.length)
    (window : Option ℕ) (e : ℝ) (he : 0 < e) :
    ∃ d, 0 < d ∧ ∀ f', Frame.CloseBy d f f' → ∃ c', callEwmas label f' pairs mv mc clipAt mean = .ok c' ∧ c'.labels = c.labels ∧
      ∀ (solver solver' : (K : ℕ) → Solver n K), (∀ K, (solver K).Exact ∧ (solver K).Complete) → (∀ K, (solver' K).Exact ∧ (solver' K).Complete) →
        ∀ times, TimesOf (rs.map IEWMA.time) times → (c.solve solver window times).err = none →
        (c'.solve solver' window times).err = none ∧
        List.Forall₂ (Option.Rel (EwmaResult.Within e)) (c.solve solver window times).items (c'.solve solver' window times).items := by
  have hdt := distinct_of_lt htm
  obtain ⟨P, hP, hret, hk⟩ := C41_panel hn label htm hf hp hne mv mc clipAt mean h
  obtain ⟨_, hlab, _⟩ := C41_as_from_sigmas hn label hdt hf hp mv mc clipAt mean h
  obtain ⟨k0, hk0⟩ := exists_labelIndex hlab hpp
  have hPlen : 2 ≤ P.len ∧ rs.length = P.len ∧ ∀ t (ht : t < rs.length), (rs[t]).time = P.time t := by
    obtain ⟨q', hl', ru, hru, hlen, hv⟩ := hk k0
    have hqq : p = q' := lastPair_unique hk0 hl'
    subst hqq
    rw [hrs] at hru
    cases hru
    exact ⟨by omega, hlen, fun t ht => (hv t ht).1⟩
  obtain ⟨hP2, hrlen, hrtime⟩ := hPlen
  obtain ⟨d0, hd0, hcont⟩ := C192_continuous hP hP2 window e he
  -- every pair
  have hrun := (C41_succeeds_iff hn label hdt hf hp mv mc clipAt mean).1 ⟨c, h⟩
  have hone : ∀ q : {q // q ∈ pairs}, ∃ d, 0 < d ∧ ∀ f', Frame.CloseBy d f f' → ∃ rs', iteratedEwma f' (ewmasArgs mv mc clipAt mean q).toArgs = .ok rs' ∧
      (LastPair label pairs q → (∀ r ∈ rs', GoodCov r) ∧
        ∃ ru, iteratedEwma f (ewmasArgs mv mc clipAt mean q).toArgs = .ok ru ∧ List.Forall₂ (IEWMA.Within d0) ru rs') := by
    rintro ⟨q, hq⟩
    obtain ⟨ru, hru, hg⟩ := hrun q hq
    have hval := ewmasArgs_valid (hp q hq) mv mc clipAt mean
    by_cases hl : LastPair label pairs q
    · obtain ⟨d, h1, h2⟩ := expert_near hn hval hdt (show Represents f (ewmasArgs mv mc clipAt mean q).nanToNum T tm x from hf) (hvol q hq) hru
        (hg hl) d0 hd0
      refine ⟨d, h1, fun f' hf' => ?_⟩
      obtain ⟨rs', h3, h4, h5⟩ := h2 f' hf'
      exact ⟨rs', h3, fun _ => ⟨h5, ru, hru, h4⟩⟩
    · obtain ⟨d, h1, h2⟩ := run_near hn hval hdt (show Represents f (ewmasArgs mv mc clipAt mean q).nanToNum T tm x from hf) (hvol q hq) hru
      refine ⟨d, h1, fun f' hf' => ?_⟩
      obtain ⟨rs', h3⟩ := h2 f' hf'
      exact ⟨rs', h3, fun hl' => absurd hl' hl⟩
  choose dq hdq hq using hone
  have : Finite {q // q ∈ pairs} := (List.finite_toSet pairs).to_subtype
  obtain ⟨dm, hdm, hdl⟩ := exists_lower dq hdq
  refine ⟨min d0 dm, lt_min hd0 hdm, fun f' hf' => ?_⟩
  obtain ⟨x', hf'r, hx', hmissing⟩ := represents_close (lt_min hd0 hdm).le hf hf'
  have hruns := fun q : {q // q ∈ pairs} => hq q f' (hf'.mono ((min_le_right _ _).trans (hdl q)))
  obtain ⟨c', hc'⟩ := C41_succeeds hn label hdt hf'r hp mv mc clipAt mean fun q hqm => by
    obtain ⟨rs', h1, h2⟩ := hruns ⟨q, hqm⟩
    exact ⟨rs', h1, fun hl => (h2 hl).1⟩
  have hlabels : c'.labels = c.labels := by
    rw [callEwmas_labels hn label hdt hf hp h, callEwmas_labels hn label hdt hf'r hp hc']
  refine ⟨c', hc', hlabels, ?_⟩
  obtain ⟨P', hP', hret', hk'⟩ := C41_panel hn label htm hf'r hp hne mv mc clipAt mean hc'
  have hmis : ∀ t, t ∈ c'.missing ↔ t ∈ c.missing := fun t => by
    rw [C70_from_ewmas_missing hn label hdt hf hp mv mc clipAt mean h, C70_from_ewmas_missing hn label hdt hf'r hp mv mc clipAt mean hc']
    exact hmissing t
  obtain ⟨labels', comb', missing'⟩ := c'
  dsimp only at hlabels hmis hk' P' hP' hret'
  subst hlabels
  -- expert by expert
  have hexp : ∀ k : Fin c.labels.length, P'.len = P.len ∧ ∀ t < P.len, P'.time t = P.time t ∧ (∀ i j, |P'.cov t k i j - P.cov t k i j| ≤ d0) ∧
      ∀ i, |P'.mean t k i - P.mean t k i| ≤ d0 := fun k => by
    obtain ⟨q, hl, ru, hru, hlen, hv⟩ := hk k
    obtain ⟨q', hl', ru', hru', hlen', hv'⟩ := hk' k
    have hqq : q = q' := lastPair_unique hl hl'
    subst hqq
    have hlast : LastPair label pairs q := by
      obtain ⟨pre, post, e1, e2, e3⟩ := hl
      exact ⟨pre, post, e1, by rw [e2]; exact e3⟩
    obtain ⟨r2, h1, h2⟩ := hruns ⟨q, hlast.mem⟩
    obtain ⟨_, r1, h3, h4⟩ := h2 hlast
    dsimp only at h1 h3
    rw [hru'] at h1
    rw [hru] at h3
    cases h1; cases h3
    have hl0 := h4.length_eq
    refine ⟨by omega, fun t ht => ?_⟩
    have hw := List.forall₂_iff_get.1 h4 |>.2 t (by omega) (by omega)
    simp only [List.get_eq_getElem] at hw
    obtain ⟨a1, a2, a3⟩ := hv t (by omega)
    obtain ⟨b1, b2, b3⟩ := hv' t (by omega)
    refine ⟨by rw [← a1, ← b1, hw.time], fun i j => ?_, fun i => ?_⟩
    · obtain ⟨v, v', g1, g2, g3⟩ := hw.covariance (i, j)
      rw [a2] at g1; rw [b2] at g2
      cases g1; cases g2
      exact g3.le
    · obtain ⟨v, v', g1, g2, g3⟩ := hw.mean i
      rw [a3] at g1; rw [b3] at g2
      cases g1; cases g2
      exact g3.le
  have hclose : P.CloseBy d0 P' := ⟨(hexp k0).1, fun t ht => ((hexp k0).2 t ht).1, fun t ht k => ((hexp k).2 t ht).2.1,
    fun t ht k => ((hexp k).2 t ht).2.2, fun t ht _ i => by
      obtain ⟨s, hs, e1, e2⟩ := hret t ht
      obtain ⟨s', hs', e1', e2'⟩ := hret' t (by rw [(hexp k0).1]; exact ht)
      have : s = s' := hdt s s' hs hs' (by rw [← e1, ← e1', ((hexp k0).2 t ht).1])
      subst this
      rw [e2, e2']
      exact (hx' s hs i).trans (min_le_left _ _)⟩
  intro solver solver' hs hs' times htimes herr
  obtain ⟨a, b, hreq⟩ := request_of_times (P := P) (by rw [List.length_map]; exact hrlen) (by
    intro t ht
    rw [List.getElem_map]
    exact hrtime t (by simpa using ht)) htimes (effWindow window (P.len - 1))
  have hreq' := request_close hclose hreq
  have hclean : ∀ t, a ≤ t → t < b → ∀ s, t - effWindow window (P.len - 1) < s → s ≤ t → P.time s ∉ c.missing := by
    intro t h1 h2 s h3 h4 hm
    have := C70_missing_aborts hP hP2 c.missing (solver _) window times a b hreq ⟨t, h1, h2, s, h3, h4, hm⟩
    unfold EwmaComb.solve at herr
    rw [this] at herr
    cases herr
  have hb : b ≤ P.len := by
    cases hreq with
    | all => exact le_rfl
    | some z m _ _ hzm => exact hzm
  unfold EwmaComb.solve at herr ⊢
  dsimp only at herr ⊢
  rw [C70_missing_elsewhere hP hP2 _ _ _ _ a b hreq hclean] at herr ⊢
  rw [C70_missing_elsewhere hP' (by rw [hclose.len]; exact hP2) _ _ _ _ a b (by rw [hclose.len]; exact hreq') (fun t h1 h2 s h3 h4 => by
    rw [hmis, hclose.time s (by omega)]
    rw [hclose.len] at h3
    exact hclean t h1 h2 s h3 h4)]
  obtain ⟨h1, h2⟩ := hcont P' _ comb' hP' hclose (solver _) (solver' _) (hs _).1 (hs _).2 (hs' _).1 (hs' _).2 times a b hreq herr
  refine ⟨h1, ?_⟩
  rw [List.forall₂_map_left_iff, List.forall₂_map_right_iff]
  refine h2.imp fun o o' ho => ?_
  cases ho with
  | none => exact .none
  | some hw =>
    refine .some ⟨hw.time, hw.mean, hw.covariance, ?_⟩
    unfold EwmaComb.labelled
    rw [List.forall₂_iff_get]
    refine ⟨by simp, fun i h1 h2 => ?_⟩
    simp only [List.length_ofFn] at h1
    simp only [List.get_eq_getElem, List.getElem_ofFn, true_and]
    exact hw.weights _

/-- **C194.** Where a volatility vanishes, the results may jump: for all half-lives and winsorisation levels there is a table (one asset, returns
`0, 1`) for which `iterated_ewma` yields one result, while for tables arbitrarily close to it it yields two. -/
theorem C194_jump {h1 h2 : ℝ} (hh1 : 0 < h1) (hh2 : 0 < h2) (clipAt : Option ℝ) :
    ∃ (f : Frame ℕ (Fin 1) XR) (rs : List (IEWMA ℕ (Fin 1) XR)),
      iteratedEwma f (ewmasArgs 1 1 clipAt false (h1, h2)).toArgs = .ok rs ∧ rs.length = 1 ∧
      ∀ d, 0 < d → ∃ f' rs', Frame.CloseBy d f f' ∧ iteratedEwma f' (ewmasArgs 1 1 clipAt false (h1, h2)).toArgs = .ok rs' ∧ rs'.length = 2 := by
  set a := ewmasArgs 1 1 clipAt false (h1, h2) with ha
  have hval : a.Valid := ewmasArgs_valid ⟨hh1, hh2⟩ 1 1 clipAt false
  have hd : DistinctTimes 2 (fun t => t : ℕ → ℕ) := fun _ _ _ _ h => h
  let x : ℝ → ℕ → Fin 1 → ℝ := fun v t _ => if t = 0 then v else 1
  have hrep : ∀ v, Represents (finFrame 2 (fun t => t) (x v)) a.nanToNum 2 (fun t => t) (x v) := fun v =>
    ⟨fun t => finRow (x v t), rfl, fun t _ i => Or.inl (by simp [finRow])⟩
  have hc : ∀ v t i, cRet a (x v) t i = x v t i := fun v t i => by simp [cRet, muOf, ha, ewmasArgs]
  have hrun := fun v => iteratedEwma_spec hval hd (hrep v)
  have hv0 : vol a (x 0) 0 0 = 0 := by
    unfold vol volSq varSeq
    rw [hc]
    simp [x]
  have hl0 : live a 2 (x 0) = [1] := by
    unfold live
    rw [show List.range 2 = [0, 1] from rfl]
    have e0 : ¬ (a.minPeriodsVola - 1 ≤ ((0 : ℕ) : Int) ∧ ∃ i, ¬ (vol a (x 0) 0 i = 0 ∧ cRet a (x 0) 0 i = 0)) := by
      rintro ⟨_, i, hi⟩
      have : i = 0 := Subsingleton.elim _ _
      subst this
      exact hi ⟨hv0, by rw [hc]; simp [x]⟩
    have e1 : a.minPeriodsVola - 1 ≤ ((1 : ℕ) : Int) ∧ ∃ i, ¬ (vol a (x 0) 1 i = 0 ∧ cRet a (x 0) 1 i = 0) :=
      ⟨by simp [ha, ewmasArgs], 0, fun hi => by rw [hc] at hi; simp [x] at hi⟩
    rw [List.filter_cons_of_neg (by simpa only [decide_eq_true_eq] using e0), List.filter_cons_of_pos (by simpa only [decide_eq_true_eq] using e1),
      List.filter_nil]
  have hl1 : ∀ v, v ≠ 0 → live a 2 (x v) = List.range 2 := fun v hv => live_eq_range fun t ht => by
    refine ⟨by simp [ha, ewmasArgs], 0, fun hi => ?_⟩
    rw [hc] at hi
    have h2 := hi.2
    simp only [x] at h2
    split at h2
    · exact hv h2
    · exact one_ne_zero h2
  have r0 := hrun 0
  rw [hl0, if_neg (by simp)] at r0
  refine ⟨_, _, r0, by simp [ha, ewmasArgs, rowsFrom], fun d hd0 => ?_⟩
  have r1 := hrun d
  rw [hl1 d hd0.ne', if_neg (by simp)] at r1
  refine ⟨_, _, ?_, r1, by simp [ha, ewmasArgs, rowsFrom_eq_drop]⟩
  unfold Frame.CloseBy finFrame finRows
  rw [List.forall₂_map_left_iff, List.forall₂_map_right_iff]
  refine List.forall₂_same.2 fun t _ => ⟨rfl, fun i => Or.inr ⟨x 0 t i, x d t i, by simp [finRow], by simp [finRow], ?_⟩⟩
  simp only [x]
  split
  · rw [sub_zero, abs_of_pos hd0]
  · simpa using hd0.le

namespace ReturnsContinuityEx

theorem vol_pos (p : ℝ × ℝ) (hp : 0 < p.1 ∧ 0 < p.2) (t : ℕ) (i : Fin 2) : 0 < vol (ewmasArgs 1 2 none false p) Ex.x t i := by
  have hv := ewmasArgs_valid hp 1 2 none false
  refine lt_of_le_of_ne (Real.sqrt_nonneg _) fun h0 => ?_
  have := (volSq_zero_iff hv Ex.x t i).mp h0.symm 0 (by omega) (Or.inl rfl)
  have e : cRet (ewmasArgs 1 2 none false p) Ex.x 0 i = Ex.x 0 i := by simp [cRet, muOf, ewmasArgs]
  rw [e] at this
  fin_cases i
  · exact (E2EEx.fine.first 0).ne' this
  · exact E2EEx.fine.second this

/-- The hypotheses of C194 are met by a table of four days with a missing entry: two results, continuous in the returns. -/
example [DecidableEq (XR × XR)] : ∃ c, callEwmas id (E2EEx.frame 4) E2EEx.pairs 1 2 none false = .ok c ∧
    (c.solve (exactSolver 2) (some 1)).items.length = 2 ∧
    ∃ d, 0 < d ∧ ∀ f', Frame.CloseBy d (E2EEx.frame 4) f' → ∃ c', callEwmas id f' E2EEx.pairs 1 2 none false = .ok c' ∧
      (c'.solve (exactSolver 2) (some 1)).err = none ∧
      List.Forall₂ (Option.Rel (EwmaResult.Within (1 / 10 ^ 9))) (c.solve (exactSolver 2) (some 1)).items (c'.solve (exactSolver 2) (some 1)).items := by
  have hpp : ((2, 3) : ℝ × ℝ) ∈ E2EEx.pairs := by simp [E2EEx.pairs]
  obtain ⟨c, hc⟩ := E2EEx.succeeds 4 (by norm_num)
  obtain ⟨s1, s2⟩ := E2EEx.solves 4 (by norm_num) hc
  obtain ⟨d, hd, h⟩ := C194_from_ewmas (by norm_num) id (tm := id) (fun s t h _ => h) (E2EEx.represents 4) E2EEx.pos (by simp [E2EEx.pairs]) 1 2 none
    false hc (fun p hp t _ _ i => vol_pos p (E2EEx.pos p hp) t i) (p := (2, 3)) ⟨[], [], rfl, by simp⟩
    (E2EEx.runs 4 (by norm_num) (2, 3) (E2EEx.pos _ hpp)) (by rw [List.length_map, E2EEx.rowsFrom_length]; norm_num) (some 1) (1 / 10 ^ 9) (by norm_num)
  refine ⟨c, hc, s1, d, hd, fun f' hf' => ?_⟩
  obtain ⟨c', h1, _, h2⟩ := h f' hf'
  obtain ⟨h3, h4⟩ := h2 (exactSolver 2) (exactSolver 2) (fun K => ⟨exactSolver_exact, exactSolver_complete⟩)
    (fun K => ⟨exactSolver_exact, exactSolver_complete⟩) none .all s2
  exact ⟨c', h1, h3, h4⟩

end ReturnsContinuityEx
end CovPred
