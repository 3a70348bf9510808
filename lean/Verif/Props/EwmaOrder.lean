import Verif.Lemmas.EwmaOrder
import Verif.Props.IewmaMore
import Verif.Props.Causality
import Verif.Spec.FactorModel
import Mathlib.Data.List.Sort

/-
Property C174 (the order of the rows) and C60 (labels matter through their order only).
-/
set_option linter.unusedSectionVars false
namespace CovPred
open XR

section generic

variable {τ τ' ι : Type} [LinearOrder τ] [LinearOrder τ'] [Ix ι] {α : Type} [Scalar α]

/-- **C174.** If the rows are in increasing order of their labels, `iterated_ewma` is the computation without any sorting (the one
the other properties are about). (For every scalar type, floating point included.) -/
theorem C174_chronological {f : Frame τ ι α} (hf : f.index.Pairwise (· < ·)) (a : IewmaArgs α) :
    iteratedEwmaPd f a = iteratedEwma f a := iteratedEwmaPd_increasing hf a

theorem alignPd_relabel {g : τ → τ'} (hg : StrictMono g) (op : α → α → α) (f k : Frame τ ι α) :
    Frame.alignPd op (relabel g f) (relabel g k) = relabel g (Frame.alignPd op f k) := by
  have hi : ∀ f : Frame τ ι α, (relabel g f).index = f.index.map g := fun f => by
    unfold relabel Frame.index
    rw [List.map_map, List.map_map]; rfl
  unfold Frame.alignPd
  rw [align_relabel hg.injective, hi, hi]
  have e1 : (f.index.map g = k.index.map g) = (f.index = k.index) :=
    propext (List.map_injective_iff.mpr hg.injective).eq_iff
  have e2 : (relabel g k).length = k.length := by unfold relabel; rw [List.length_map]
  simp only [e1, e2]
  split
  · rfl
  · unfold relabel
    rw [List.map_mergeSort]
    intro p _ q _
    rw [Bool.eq_iff_iff, decide_eq_true_iff, decide_eq_true_iff]
    exact hg.le_iff_le.symm

theorem centerPd_relabel {g : τ → τ'} (hg : StrictMono g) (f : Frame τ ι α) (h : α) (mp : Int) (mean : Bool) :
    centerPd (relabel g f) h mp mean = (centerPd f h mp mean).map fun cm => (relabel g cm.1, relabel g cm.2) := by
  unfold centerPd
  cases mean with
  | false => simp only [Bool.false_eq_true, if_false, Except.map]; rw [mapVals_relabel]
  | true =>
    simp only [if_true]
    rw [ewmaMean_relabel]
    cases ewmaMean f h mp none with
    | error e => rfl
    | ok r =>
      simp only [Except.map, Frame.dropnaAll]
      rw [alignPd_relabel hg, filter_relabel g fun r => !(r.all Scalar.isNaN)]

/-- **C60.** Only the order of the labels matters: replacing them by others in the same order changes nothing but the labels of
the results. (For every scalar type, floating point included, and rows in any order.) -/
theorem C60_relabel {g : τ → τ'} (hg : StrictMono g) (f : Frame τ ι α) (a : IewmaArgs α) :
    iteratedEwmaPd (f.map fun p => (g p.1, p.2)) a =
      (iteratedEwmaPd f a).map (List.map fun r => { r with time := g r.time }) := by
  change iteratedEwmaPd (relabel g f) a = _
  rw [iteratedEwmaPd_steps, iteratedEwmaPd_steps, filled_relabel, centerPd_relabel hg, except_map_bind, except_bind_map]
  congr 1
  funext cm
  rw [volatility_relabel, except_map_bind, except_bind_map]
  congr 1
  funext vola
  rw [alignPd_relabel hg, clip_relabel, Frame.fillna0, mapVals_relabel, centerPd_relabel hg, except_map_bind,
    except_bind_map]
  congr 1
  funext am
  rw [ewmaCov_relabel, except_map_bind, except_bind_map]
  congr 1
  funext covs
  rw [mapM_map_except]
  have hc : relabel g covs = covs.map fun p => (g p.1, p.2) := rfl
  rw [hc, List.mapM_map]
  congr 1
  funext p
  exact item_relabel hg.injective _ _ _ _ _ _

example : StrictMono (fun n : ℕ => n + 20200101) := fun _ _ h => by simpa using h

/-- **C60.** If the rows are in increasing order before and after, the labels do not matter at all. -/
theorem C60_opaque {g : τ → τ'} (f : Frame τ ι α) (hf : f.index.Pairwise (· < ·)) (hg : Function.Injective g)
    (hf' : (f.index.map g).Pairwise (· < ·)) (a : IewmaArgs α) :
    iteratedEwmaPd (f.map fun p => (g p.1, p.2)) a =
      (iteratedEwmaPd f a).map (List.map fun r => { r with time := g r.time }) := by
  rw [iteratedEwmaPd_increasing hf, iteratedEwmaPd_increasing]
  · exact relabel_injective hg f a
  · have : Frame.index (f.map fun p => (g p.1, p.2)) = f.index.map g := by
      unfold Frame.index
      rw [List.map_map, List.map_map]; rfl
    rw [this]; exact hf'

end generic

variable {τ ι : Type} [LinearOrder τ] [Ix ι]

theorem adj_of_list {a : RealArgs} (ha : a.Valid) {T : ℕ} {tm : ℕ → τ} (hd : DistinctTimes T tm) (x : ℕ → ι → ℝ) {l : List ℕ}
    (hl : ∀ t ∈ l, t < T) {F : Frame τ ι XR} (hF : F = l.map fun t => (tm t,
      quotRow (finRow (cRet a x t)) ((finRows (rowsFrom a.minPeriodsVola T) tm (vol a x)).loc? (tm t)))) :
    (clip F (a.clip.map fin)).fillna0 =
      finRows (l.filter fun t => t ∈ live a T x) tm fun t i => adjReal a.clip (cRet a x t i) (vol a x t i) := by
  rw [adj_sorted a.minPeriodsVola a.clip_ne hd (cRet a x) (vol a x) (fun h => vol_zero_ret ha x h) l hl F hF]
  congr 1
  apply List.filter_congr
  intro t ht
  rw [decide_eq_decide]
  exact ⟨fun h => liveRows_mem.mpr ⟨hl t ht, h⟩, fun h => (liveRows_mem.mp h).2⟩

/-- **C174.** What `iterated_ewma` computes when the labels are distinct, in any order: every row's volatility and mean are taken
in the order of the rows; but the rows enter the covariances in the order `rows`: that of the table if there is no warm-up
(`min_periods_vola` at most 1), otherwise that of the labels. -/
theorem C174_order [Nonempty ι] {f : Frame τ ι XR} {a : RealArgs} (ha : a.Valid) {T : ℕ} {tm : ℕ → τ}
    (hd : DistinctTimes T tm) {x : ℕ → ι → ℝ} (hf : Represents f a.nanToNum T tm x) {rows : List ℕ}
    (hrows : (a.minPeriodsVola ≤ 1 ∧ rows = live a T x) ∨
      (1 < a.minPeriodsVola ∧ rows.Perm (live a T x) ∧ rows.Pairwise fun s t => tm s < tm t)) :
    iteratedEwmaPd f a.toArgs =
      if rows = [] then .error .indexError
      else .ok ((rowsFrom a.minPeriodsCov rows.length).map (itemOn a rows tm x)) := by
  have hperm : rows.Perm (live a T x) := by
    rcases hrows with ⟨_, rfl⟩ | ⟨_, h, _⟩
    · exact List.Perm.refl _
    · exact h
  have hlt : ∀ k ∈ rows, k < T := fun k hk => (liveRows_mem.mp (hperm.mem_iff.mp hk)).1
  have hge : ∀ k ∈ rows, a.minPeriodsVola - 1 ≤ (k : Int) := fun k hk => (liveRows_mem.mp (hperm.mem_iff.mp hk)).2.1
  have hn : rows.Nodup := hperm.nodup_iff.mpr (liveRows_nodup _ _ _ _)
  rcases Nat.eq_zero_or_pos T with h0 | hT
  · subst h0
    have hnil : rows = [] := List.eq_nil_iff_forall_not_mem.mpr fun k hk => by have := hlt k hk; omega
    rw [if_pos hnil]
    have hfn : f = [] := by obtain ⟨R, rfl, _⟩ := hf; rfl
    rw [hfn, iteratedEwmaPd_increasing (by exact List.Pairwise.nil)]
    exact iteratedEwma_nil ha
  · rw [head_fin ha hT hd hf]
    have halign : Frame.alignWith (· / ·) (finFrame T tm (cRet a x)) (finRows (rowsFrom a.minPeriodsVola T) tm (vol a x))
        = (List.range T).map fun t => (tm t,
          quotRow (finRow (cRet a x t)) ((finRows (rowsFrom a.minPeriodsVola T) tm (vol a x)).loc? (tm t))) := by
      unfold Frame.alignWith finFrame
      conv_lhs => arg 2; unfold finRows
      rw [List.map_map]
      apply List.map_congr_left
      intro t _
      dsimp only [Function.comp]
      congr 1
      cases (finRows (rowsFrom a.minPeriodsVola T) tm (vol a x)).loc? (tm t) <;> rfl
    have hadj : (clip (Frame.alignPd (· / ·) (finFrame T tm (cRet a x)) (finRows (rowsFrom a.minPeriodsVola T) tm (vol a x)))
        (a.clip.map fin)).fillna0 = finRows rows tm fun t i => adjReal a.clip (cRet a x t i) (vol a x t i) := by
      have hplain : ∀ l : List ℕ, l.Perm (List.range T) → (1 < a.minPeriodsVola → l.Pairwise fun s t => tm s < tm t) →
          (a.minPeriodsVola ≤ 1 → l = List.range T) → (l.filter fun t => t ∈ live a T x) = rows := by
        intro l hl h1 h2
        have hp : (l.filter fun t => t ∈ live a T x).Perm rows := by
          refine (hl.filter _).trans (List.Perm.trans ?_ hperm.symm)
          have : (List.range T).filter (fun t => t ∈ live a T x) = live a T x := by
            conv_rhs => unfold live
            apply List.filter_congr
            intro t ht
            rw [decide_eq_decide]
            exact ⟨fun h => (liveRows_mem.mp h).2, fun h => liveRows_mem.mpr ⟨List.mem_range.mp ht, h⟩⟩
          rw [this]
        rcases hrows with ⟨hm, rfl⟩ | ⟨hm, _, hs⟩
        · rw [h2 hm]
          conv_rhs => unfold live
          apply List.filter_congr
          intro t ht
          rw [decide_eq_decide]
          exact ⟨fun h => (liveRows_mem.mp h).2, fun h => liveRows_mem.mpr ⟨List.mem_range.mp ht, h⟩⟩
        · exact hp.eq_of_pairwise (le := fun s t => tm s < tm t) (fun s t _ _ h1 h2 => absurd (h1.trans h2) (lt_irrefl _))
            ((h1 hm).filter _) hs
      by_cases hm : a.minPeriodsVola ≤ 1
      · have hr : rowsFrom a.minPeriodsVola T = List.range T := by
          unfold rowsFrom
          rw [List.filter_eq_self]
          intro t _
          rw [decide_eq_true_iff]
          omega
        rw [alignPd_index, halign, adj_of_list ha hd x (l := List.range T) (fun t ht => List.mem_range.mp ht) rfl,
          hplain _ (List.Perm.refl _) (fun h => absurd h (not_lt.mpr hm)) fun _ => rfl]
        rw [hr]
        unfold finFrame
        rw [index_finRows, index_finRows]
      · by_cases hr : rowsFrom a.minPeriodsVola T = []
        · have hl : live a T x = [] := List.eq_nil_iff_forall_not_mem.mpr fun k hk => by
            obtain ⟨h1, h2, _⟩ := liveRows_mem.mp hk
            have := mem_rowsFrom.mpr ⟨h1, h2⟩
            rw [hr] at this; cases this
          have hrn : rows = [] := by rw [hl] at hperm; exact hperm.eq_nil
          have e : Frame.alignPd (· / ·) (finFrame T tm (cRet a x)) (finRows (rowsFrom a.minPeriodsVola T) tm (vol a x))
              = Frame.alignWith (· / ·) (finFrame T tm (cRet a x)) (finRows (rowsFrom a.minPeriodsVola T) tm (vol a x)) :=
            if_pos (Or.inr (by rw [hr]; rfl))
          rw [e, halign, adj_of_list ha hd x (l := List.range T) (fun t ht => List.mem_range.mp ht) rfl, hrn, hl]
          simp
        · have hne : ¬((finFrame T tm (cRet a x)).index = (finRows (rowsFrom a.minPeriodsVola T) tm (vol a x)).index ∨
              (finRows (rowsFrom a.minPeriodsVola T) tm (vol a x)).length = 0) := by
            rintro (h | h)
            · unfold finFrame at h
              rw [index_finRows, index_finRows] at h
              have h := congrArg List.length h
              rw [List.length_map, List.length_map, List.length_range] at h
              have hlt : (rowsFrom a.minPeriodsVola T).length < (List.range T).length := by
                unfold rowsFrom
                rw [List.length_filter_lt_length_iff_exists]
                exact ⟨0, List.mem_range.mpr hT, by simp; omega⟩
              rw [List.length_range] at hlt
              omega
            · unfold finRows at h
              rw [List.length_map, List.length_eq_zero_iff] at h
              exact hr h
          have e : Frame.alignPd (· / ·) (finFrame T tm (cRet a x)) (finRows (rowsFrom a.minPeriodsVola T) tm (vol a x))
              = ((List.range T).mergeSort fun s t => decide (tm s ≤ tm t)).map fun t => (tm t,
                quotRow (finRow (cRet a x t)) ((finRows (rowsFrom a.minPeriodsVola T) tm (vol a x)).loc? (tm t))) := by
            unfold Frame.alignPd
            rw [if_neg hne, halign]
            exact (List.map_mergeSort (r := fun s t => decide (tm s ≤ tm t)) (s := fun p q : τ × Arr ι XR => decide (p.1 ≤ q.1))
              (f := fun t => (tm t,
                quotRow (finRow (cRet a x t)) ((finRows (rowsFrom a.minPeriodsVola T) tm (vol a x)).loc? (tm t))))
              fun _ _ _ _ => rfl).symm
          have hp := List.mergeSort_perm (List.range T) fun s t => decide (tm s ≤ tm t)
          have hs : ((List.range T).mergeSort fun s t => decide (tm s ≤ tm t)).Pairwise fun s t => tm s < tm t := by
            have h1 := List.pairwise_mergeSort (le := fun s t => decide (tm s ≤ tm t))
              (fun p q r h1 h2 => decide_eq_true ((of_decide_eq_true h1).trans (of_decide_eq_true h2)))
              (fun p q => by simpa using le_total (tm p) (tm q)) (List.range T)
            have h2 : ((List.range T).mergeSort fun s t => decide (tm s ≤ tm t)).Nodup := hp.nodup_iff.mpr List.nodup_range
            have h3 := List.Pairwise.and_mem.mp (h1.and h2)
            exact h3.imp fun ⟨m1, m2, h, hne⟩ => lt_of_le_of_ne (of_decide_eq_true h) fun e =>
              hne (hd _ _ (List.mem_range.mp (hp.mem_iff.mp m1)) (List.mem_range.mp (hp.mem_iff.mp m2)) e)
          rw [e, adj_of_list ha hd x (fun t ht => List.mem_range.mp (hp.mem_iff.mp ht)) rfl,
            hplain _ hp (fun _ => hs) fun h => absurd h hm]
    rw [hadj]
    have hc : centerPd (finRows rows tm fun t i => adjReal a.clip (cRet a x t i) (vol a x t i)) (fin a.mu2h) 0 a.mean
        = center (finRows rows tm fun t i => adjReal a.clip (cRet a x t i) (vol a x t i)) (fin a.mu2h) 0 a.mean := by
      by_cases hr : rows = []
      · exact centerPd_increasing (by rw [hr]; exact List.Pairwise.nil) _ _ _
      · rw [finRows_reindex]
        exact centerPd_fin (orElse_pos ha.cov ha.mu2) a.mean (List.length_pos_of_ne_nil hr) _ _
    rw [hc]
    exact tail_fin ha hd x hlt hge hn

theorem distinct_of_decreasing {T : ℕ} {tm : ℕ → τ} (hdec : ∀ s t, s < t → t < T → tm t < tm s) : DistinctTimes T tm := by
  intro s t hs ht h
  rcases lt_trichotomy s t with hlt | h' | hlt
  · exact absurd h (hdec s t hlt ht).ne'
  · exact h'
  · exact absurd h (hdec t s hlt hs).ne

/-- **C174.** Newest row first, and a warm-up: the covariances are formed from the oldest row to the newest, but out of
volatilities that were formed the other way round; the results come oldest first. -/
theorem C174_decreasing [Nonempty ι] {f : Frame τ ι XR} {a : RealArgs} (ha : a.Valid) (hm : 1 < a.minPeriodsVola) {T : ℕ}
    {tm : ℕ → τ} (hdec : ∀ s t, s < t → t < T → tm t < tm s) {x : ℕ → ι → ℝ} (hf : Represents f a.nanToNum T tm x) :
    iteratedEwmaPd f a.toArgs =
      if live a T x = [] then .error .indexError
      else .ok ((rowsFrom a.minPeriodsCov (live a T x).length).map (itemOn a (live a T x).reverse tm x)) := by
  have hlt : ∀ k ∈ live a T x, k < T := fun k hk => (liveRows_mem.mp hk).1
  have hs : (live a T x).Pairwise (· < ·) := by
    unfold live
    exact List.pairwise_lt_range.filter _
  have hs' : (live a T x).reverse.Pairwise fun s t => tm s < tm t := by
    rw [List.pairwise_reverse]
    exact (List.Pairwise.and_mem.mp hs).imp fun ⟨_, h2, h⟩ => hdec _ _ h (hlt _ h2)
  have h := C174_order ha (distinct_of_decreasing hdec) hf (rows := (live a T x).reverse)
    (Or.inr ⟨hm, List.reverse_perm _, hs'⟩)
  rw [h, List.length_reverse]
  simp only [List.reverse_eq_nil_iff]

theorem emaAvg_ne_of_first {b : ℝ} (hb : 0 < b) {x y : ℕ → ℝ} (h : ∀ k, k ≠ 0 → x k = y k) (h0 : x 0 ≠ y 0) (t : ℕ) :
    emaAvg b x t ≠ emaAvg b y t := by
  intro he
  unfold emaAvg at he
  rw [div_left_inj' (emaAvg_den_pos hb t).ne', Finset.sum_range_succ', Finset.sum_range_succ'] at he
  have e : ∑ k ∈ Finset.range t, b ^ (t - (k + 1)) * x (k + 1) = ∑ k ∈ Finset.range t, b ^ (t - (k + 1)) * y (k + 1) :=
    Finset.sum_congr rfl fun k _ => by rw [h (k + 1) (Nat.succ_ne_zero k)]
  rw [e] at he
  exact h0 (mul_left_cancel₀ (pow_pos hb _).ne' (add_left_cancel he))

/-- **C174.** Newest row first: with a table in that order `iterated_ewma` looks ahead. If the newest return of an asset
changes (in size), then so does its volatility in the results for all the dates before. -/
theorem C174_lookahead [Nonempty ι] {f f' : Frame τ ι XR} {a : RealArgs} (ha : a.Valid) (hm : 1 < a.minPeriodsVola)
    (hclip : a.clipAt = none) (hmean : a.mean = false) {T : ℕ} {tm : ℕ → τ} (hdec : ∀ s t, s < t → t < T → tm t < tm s)
    {x x' : ℕ → ι → ℝ} (hf : Represents f a.nanToNum T tm x) (hf' : Represents f' a.nanToNum T tm x') {i : ι}
    (hx : ∀ t, t ≠ 0 → x t = x' t) (hi : |x 0 i| ≠ |x' 0 i|) {rs rs' : List (IEWMA τ ι XR)}
    (hrs : iteratedEwmaPd f a.toArgs = .ok rs) (hrs' : iteratedEwmaPd f' a.toArgs = .ok rs') {r r' : IEWMA τ ι XR}
    (hr : r ∈ rs) (hr' : r' ∈ rs') (ht : r.time = r'.time) : r.volatility i ≠ r'.volatility i := by
  have key : ∀ {f : Frame τ ι XR} {x : ℕ → ι → ℝ} (_ : Represents f a.nanToNum T tm x) {rs : List (IEWMA τ ι XR)}
      (_ : iteratedEwmaPd f a.toArgs = .ok rs) {r : IEWMA τ ι XR} (_ : r ∈ rs),
      ∃ t, t < T ∧ r.time = tm t ∧ r.volatility i = fin (vol a x t i) := by
    intro f x hf rs hrs r hr
    rw [C174_decreasing ha hm hdec hf] at hrs
    split at hrs
    · cases hrs
    · rw [← Except.ok.inj hrs] at hr
      obtain ⟨j, hj, rfl⟩ := List.mem_map.mp hr
      refine ⟨(live a T x).reverse.getD j 0, ?_, rfl, ?_⟩
      · have : (live a T x).reverse.getD j 0 ∈ (live a T x).reverse :=
          liveRows_getD_mem (by rw [List.length_reverse]; exact rowsFrom_lt hj)
        exact (liveRows_mem.mp (List.mem_reverse.mp this)).1
      · simp [itemOn, finRow]
  obtain ⟨t, h1, h2, h3⟩ := key hf hrs hr
  obtain ⟨t', h1', h2', h3'⟩ := key hf' hrs' hr'
  have htt : t = t' := distinct_of_decreasing hdec t t' h1 h1' (by rw [← h2, ← h2', ht])
  subst htt
  rw [h3, h3']
  intro he
  have he := XR.fin.inj he
  have hc : a.clip = none := by unfold RealArgs.clip; rw [hclip]
  have hcr : ∀ x : ℕ → ι → ℝ, (fun k => cRet a x k i ^ 2) = fun k => x k i ^ 2 := by
    intro x; funext k; unfold cRet muOf; rw [hmean]; simp
  unfold vol volSq at he
  rw [hc, varSeq_none (decayOf_pos _) (decayOf_lt_one ha.vola), varSeq_none (decayOf_pos _) (decayOf_lt_one ha.vola),
    hcr, hcr] at he
  have he := (Real.sqrt_inj (emaAvg_nonneg (decayOf_pos _) fun k _ => sq_nonneg _)
    (emaAvg_nonneg (decayOf_pos _) fun k _ => sq_nonneg _)).mp he
  refine emaAvg_ne_of_first (decayOf_pos _) (fun k hk => ?_) (fun h => hi ?_) t he
  · show x k i ^ 2 = x' k i ^ 2
    rw [hx k hk]
  · exact (sq_eq_sq_iff_abs_eq_abs _ _).mp h

/-- **C02** for the model with sorting: new rows with later labels never change the results for the earlier ones. -/
theorem C02_no_lookahead_chronological {α : Type} [Scalar α] (hnan : Scalar.isNaN (Scalar.nan : α) = true) (f later : Frame τ ι α)
    (a : IewmaArgs α) (hinc : (f ++ later).index.Pairwise (· < ·)) {rs : List (IEWMA τ ι α)} (h : iteratedEwmaPd f a = .ok rs) :
    ∃ rs', iteratedEwmaPd (f ++ later) a = .ok (rs ++ rs') ∧ ∀ r ∈ rs', r.time ∈ later.index := by
  have hf : f.index.Pairwise (· < ·) := by
    have : (f ++ later).index = f.index ++ later.index := List.map_append
    rw [this] at hinc
    exact (List.pairwise_append.mp hinc).1
  rw [iteratedEwmaPd_increasing hinc]
  rw [iteratedEwmaPd_increasing hf] at h
  exact C02_no_lookahead_ok hnan f later a (hinc.imp fun h => h.ne) h

end CovPred

/-
Three rows, the newest first, two assets: the hypotheses can be met, and there are results for two dates.
-/
namespace CovPred.OrderEx
open XR

noncomputable def args : RealArgs where
  volaHalflife := 2
  covHalflife := 3
  minPeriodsVola := 2
  minPeriodsCov := 1

/-- dates: 2, 1, 0 -/
def date (t : ℕ) : ℤ := 2 - t

noncomputable def x (t : ℕ) (i : Fin 2) : ℝ := t + 1 + (i : ℕ)
/-- the newest return of asset 0 is -3 instead of 1 -/
noncomputable def x' (t : ℕ) (i : Fin 2) : ℝ := if t = 0 ∧ i = 0 then -3 else x t i

theorem valid : args.Valid := ⟨by norm_num [args], by norm_num [args], by simp [args], by simp [args]⟩

theorem dates : ∀ s t, s < t → t < 3 → date t < date s := fun s t h _ => by unfold date; omega

theorem represents (y : ℕ → Fin 2 → ℝ) : Represents (finFrame 3 date y) true 3 date y :=
  ⟨fun t => finRow (y t), rfl, fun t _ i => Or.inl (by simp [finRow])⟩

theorem live_eq (y : ℕ → Fin 2 → ℝ) (hy : ∀ t, y t 1 ≠ 0) : live args 3 y = [1, 2] := by
  have h : ∀ t : ℕ, (args.minPeriodsVola - 1 ≤ (t : ℤ) ∧ ∃ i, ¬ (vol args y t i = 0 ∧ cRet args y t i = 0)) ↔ 1 ≤ t := by
    intro t
    have h1 : args.minPeriodsVola - 1 = 1 := by norm_num [args]
    rw [h1]
    constructor
    · rintro ⟨h, _⟩; omega
    · refine fun h => ⟨by omega, 1, ?_⟩
      rintro ⟨-, h⟩
      have : cRet args y t 1 = y t 1 := by simp [cRet, muOf, args]
      rw [this] at h
      exact hy t h
  unfold live
  simp only [h]
  decide

theorem run (y : ℕ → Fin 2 → ℝ) (hy : ∀ t, y t 1 ≠ 0) : ∃ rs, iteratedEwmaPd (finFrame 3 date y) args.toArgs = .ok rs ∧
    rs.map IEWMA.time = [0, 1] := by
  rw [C174_decreasing valid (by norm_num [args]) dates (represents y), live_eq y hy]
  refine ⟨_, rfl, ?_⟩
  have : rowsFrom args.minPeriodsCov [1, 2].length = [0, 1] := by decide
  rw [this]
  rfl

/-- both dates, 0 and 1, have another volatility of asset 0 if the return of date 2 is another -/
example : ∃ rs rs', iteratedEwmaPd (finFrame 3 date x) args.toArgs = .ok rs ∧ iteratedEwmaPd (finFrame 3 date x') args.toArgs = .ok rs' ∧
    rs.map IEWMA.time = [0, 1] ∧ rs'.map IEWMA.time = [0, 1] ∧
    ∀ r ∈ rs, ∀ r' ∈ rs', r.time = r'.time → r.volatility 0 ≠ r'.volatility 0 := by
  have hx : ∀ t, x t 1 ≠ 0 := fun t => by unfold x; positivity
  obtain ⟨rs, h1, h2⟩ := run x hx
  obtain ⟨rs', h1', h2'⟩ := run x' fun t => by unfold x'; simpa using hx t
  refine ⟨rs, rs', h1, h1', h2, h2', fun r hr r' hr' ht => ?_⟩
  refine C174_lookahead valid (by norm_num [args]) rfl rfl dates (represents x) (represents x') ?_ ?_ h1 h1' hr hr' ht
  · intro t ht
    funext i
    simp [x', ht]
  · norm_num [x, x']

/-- increasing labels: see the examples of `iteratedEwma` -/
example : (Ex.frame ++ [(3, finRow fun _ => 1)]).index.Pairwise (· < ·) ∧
    ∃ rs, iteratedEwmaPd Ex.frame Ex.args.toArgs = .ok rs ∧ rs.length = 2 := by
  have h : (Ex.frame ++ [(3, finRow fun _ => 1)]).index = [0, 1, 2, 3] := rfl
  refine ⟨by rw [h]; decide, ?_⟩
  rw [C174_chronological (by rw [show Ex.frame.index = [0, 1, 2] from rfl]; decide)]
  exact ⟨_, Ex.run, rfl⟩

end CovPred.OrderEx
