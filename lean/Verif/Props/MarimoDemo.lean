import Verif.Lemmas.MarimoDemo
import Verif.Props.EndToEnd2
import Verif.Lemmas.CmIewma
import Verif.Lemmas.Backtests
import Mathlib.Algebra.BigOperators.Intervals

/-
Properties C157 and C158 of the demo notebook `/repo/book/marimo/demo.py`: returns from prices (demo.py:35) and the table of the
weights of `from_ewmas` (demo.py:46-53).
-/
set_option linter.unusedSectionVars false
namespace CovPred
open XR

variable {τ : Type} [LinearOrder τ] {m n : ℕ} {L : Type} [DecidableEq L]

/-! ### C157: returns from prices -/

open Classical in
/-- **C157.** For positive prices with gaps: the table of returns has a row for every day but the first on which some asset (of
all assets, not only the selected ones) had a price before. The return of a selected asset is its last price over its last
price of the day before, minus one; 0 if its price is missing; missing if it had no price before. -/
theorem C157_returns {T : ℕ} {p : ℕ → Fin m → Option ℝ} (hp : PositivePrices T p) (tm : ℕ → τ) (columns : Fin n → Fin m) :
    ∃ R : ℕ → Arr (Fin n) XR,
      demoReturns columns (priceFrame T tm p)
        = ((List.range' 1 (T - 1)).filter fun t => decide (∃ j, Listed p j (t - 1))).map (fun t => (tm t, R t)) ∧
      ∀ t, 1 ≤ t → t < T → ∀ i,
        (∀ a b, LastPrice p (columns i) (t - 1) a → LastPrice p (columns i) t b → R t i = fin (b / a - 1)) ∧
        (p t (columns i) = none → Listed p (columns i) (t - 1) → R t i = fin 0) ∧
        (¬ Listed p (columns i) (t - 1) → R t i = nan) := by
  have hval : ∀ t, 1 ≤ t → ∀ i : Fin m, ∀ a b, LastPrice p i (t - 1) a → LastPrice p i t b → returnOpt p t i = some (b / a - 1) := by
    intro t ht i a b ha hb
    unfold returnOpt
    have h1 := (lastOpt_iff p i (t - 1) a).mpr ha
    rw [show t - 1 + 1 = t by omega] at h1
    rw [h1, (lastOpt_iff p i t b).mpr hb]
  refine ⟨fun t => Arr.ofFn fun i => optXR (returnOpt p t (columns i)), ?_, ?_⟩
  · rw [demoReturns_spec hp, demo_rows]
    · congr 1
      apply List.filter_congr
      intro t ht
      rw [List.mem_range'_1] at ht
      rw [decide_eq_decide]
      refine exists_congr fun j => ?_
      rw [← lastOpt_isSome, show t - 1 + 1 = t by omega]
    · simp [lastOpt]
  · intro t h1 h2 i
    simp only [Arr.get_ofFn]
    refine ⟨fun a b ha hb => by rw [hval t h1 _ a b ha hb]; rfl, fun hn hl => ?_, fun hl => ?_⟩
    · rw [← lastOpt_isSome, show t - 1 + 1 = t by omega] at hl
      obtain ⟨a, ha⟩ := Option.isSome_iff_exists.mp hl
      have hb : lastOpt p (columns i) (t + 1) = some a := by rw [lastOpt, hn, ha]; rfl
      have := lastOpt_pos hp (columns i) (by omega) ha
      unfold returnOpt
      rw [ha, hb]
      show fin _ = fin 0
      rw [div_self this.ne', sub_self]
    · rw [← lastOpt_isSome, show t - 1 + 1 = t by omega, ← returnOpt_isSome] at hl
      rcases h : returnOpt p t (columns i) with _ | b
      · rfl
      · rw [h] at hl; exact absurd rfl hl

/-- **C157.** Without gaps: one row for every day but the first, with the relative changes of the prices. -/
theorem C157_complete {T : ℕ} {q : ℕ → Fin m → ℝ} (hm : 0 < m) (hq : ∀ t < T, ∀ i, 0 < q t i) (tm : ℕ → τ)
    (columns : Fin n → Fin m) :
    demoReturns columns (priceFrame T tm fun t i => some (q t i))
      = (List.range' 1 (T - 1)).map fun t => (tm t, Arr.ofFn fun i => fin (q t (columns i) / q (t - 1) (columns i) - 1)) := by
  classical
  have hp : PositivePrices T fun t i => some (q t i) := by
    intro t ht i r hr
    cases hr
    exact hq t ht i
  obtain ⟨R, h1, h2⟩ := C157_returns hp tm columns
  rw [h1, List.filter_eq_self.mpr]
  · apply List.map_congr_left
    intro t ht
    rw [List.mem_range'_1] at ht
    congr 1
    apply Arr.ext
    intro i
    rw [Arr.get_ofFn]
    exact (h2 t ht.1 (by omega) i).1 _ _ ⟨t - 1, le_rfl, rfl, fun u h3 h4 => by omega⟩ ⟨t, le_rfl, rfl, fun u h3 h4 => by omega⟩
  · intro t _
    simp only [decide_eq_true_iff]
    exact ⟨⟨0, hm⟩, 0, by omega, rfl⟩

/-- **C157.** The returns compound to the prices, across gaps: if an asset has the price `a` on day `s` and `b` is its last
price on day `t ≥ s`, the table has a return for each day after `s` up to `t`, and `a` times the product of one plus these
returns is `b`. -/
theorem C157_compound {T : ℕ} {p : ℕ → Fin m → Option ℝ} (hp : PositivePrices T p) (tm : ℕ → τ) (columns : Fin n → Fin m)
    {s t : ℕ} (hst : s ≤ t) (ht : t < T) (i : Fin n) {a b : ℝ} (ha : p s (columns i) = some a)
    (hb : LastPrice p (columns i) t b) :
    ∃ r : ℕ → ℝ, (∀ u, s < u → u ≤ t → ∃ row, (tm u, row) ∈ demoReturns columns (priceFrame T tm p) ∧ row i = fin (r u)) ∧
      a * ∏ u ∈ Finset.Ioc s t, (1 + r u) = b := by
  classical
  have hsome : ∀ u, s ≤ u → (lastOpt p (columns i) (u + 1)).isSome := by
    intro u hu
    rw [lastOpt_isSome]
    exact ⟨s, hu, by rw [ha]; rfl⟩
  refine ⟨fun u => (returnOpt p u (columns i)).getD 0, fun u h1 h2 => ?_, ?_⟩
  · have h3 : (lastOpt p (columns i) u).isSome := by
      have := hsome (u - 1) (by omega)
      rwa [show u - 1 + 1 = u by omega] at this
    refine ⟨Arr.ofFn fun i => optXR (returnOpt p u (columns i)), ?_, ?_⟩
    · rw [demoReturns_spec hp]
      refine List.mem_map.mpr ⟨u, List.mem_filter.mpr ⟨List.mem_range.mpr (by omega), ?_⟩, rfl⟩
      rw [decide_eq_true_iff]
      exact ⟨columns i, h3⟩
    · rw [Arr.get_ofFn]
      rw [← returnOpt_isSome] at h3
      obtain ⟨v, hv⟩ := Option.isSome_iff_exists.mp h3
      show _ = fin ((returnOpt p u (columns i)).getD 0)
      rw [hv]; rfl
  · have key : ∀ k, s + k < T → ∀ b, lastOpt p (columns i) (s + k + 1) = some b →
        a * ∏ u ∈ Finset.Ioc s (s + k), (1 + (returnOpt p u (columns i)).getD 0) = b := by
      intro k
      induction k with
      | zero =>
        intro _ b hb
        rw [Nat.add_zero, lastOpt, ha] at hb
        cases hb
        simp
      | succ k ih =>
        intro hk b hb
        obtain ⟨c, hc⟩ := Option.isSome_iff_exists.mp (hsome (s + k) (by omega))
        have hcp := lastOpt_pos hp (columns i) (by omega) hc
        have e : returnOpt p (s + (k + 1)) (columns i) = some (b / c - 1) := by
          unfold returnOpt
          rw [show s + (k + 1) = s + k + 1 by omega, hc]
          rw [show s + (k + 1) + 1 = s + k + 1 + 1 by omega] at hb
          rw [hb]
        have hI : Finset.Ioc s (s + (k + 1)) = insert (s + (k + 1)) (Finset.Ioc s (s + k)) := by
          ext u; simp only [Finset.mem_Ioc, Finset.mem_insert]; omega
        rw [hI, Finset.prod_insert (by simp), e, ← mul_left_comm, ih (by omega) c hc]
        show (1 + (b / c - 1)) * c = b
        field_simp
        ring
    have := key (t - s) (by omega) b (by rw [show s + (t - s) = t by omega]; exact (lastOpt_iff p _ t b).mpr hb)
    rwa [show s + (t - s) = t by omega] at this

theorem lastOpt_scale (p : ℕ → Fin m → Option ℝ) (c : Fin m → ℝ) (i : Fin m) (t : ℕ) :
    lastOpt (fun t i => (p t i).map fun q => c i * q) i t = (lastOpt p i t).map fun q => c i * q := by
  induction t with
  | zero => rfl
  | succ t ih =>
    rw [lastOpt, lastOpt, ih]
    rcases p t i with _ | q <;> rfl

/-- **C157.** The currency, or the size of a share, does not matter: prices of asset `i` multiplied by `c i > 0` give the same
returns. -/
theorem C157_units {T : ℕ} {p : ℕ → Fin m → Option ℝ} (hp : PositivePrices T p) (c : Fin m → ℝ) (hc : ∀ i, 0 < c i)
    (tm : ℕ → τ) (columns : Fin n → Fin m) :
    demoReturns columns (priceFrame T tm fun t i => (p t i).map fun q => c i * q) = demoReturns columns (priceFrame T tm p) := by
  have hp' : PositivePrices T fun t i => (p t i).map fun q => c i * q := by
    intro t ht i q hq
    obtain ⟨r, hr, rfl⟩ := Option.map_eq_some_iff.mp hq
    exact mul_pos (hc i) (hp t ht i r hr)
  rw [demoReturns_spec hp, demoReturns_spec hp']
  have e : ∀ t i, returnOpt (fun t i => (p t i).map fun q => c i * q) t i = returnOpt p t i := by
    intro t i
    unfold returnOpt
    rw [lastOpt_scale, lastOpt_scale]
    rcases lastOpt p i t with _ | a
    · rfl
    · rcases lastOpt p i (t + 1) with _ | b
      · rfl
      · simp only [Option.map_some]
        rw [mul_div_mul_left _ _ (hc i).ne']
  simp only [lastOpt_scale, Option.isSome_map, e]

/-- **C157.** Later prices do not change earlier returns, whatever is in the tables. -/
theorem C157_no_lookahead (columns : Fin n → Fin m) (prices later : Frame τ (Fin m) XR) :
    demoReturns columns prices <+: demoReturns columns (prices ++ later) := by
  obtain ⟨g, hg⟩ := demoReturns_append columns prices later
  exact ⟨g, hg.symm⟩

/-- Prices with a gap: 100, missing, 110, 121 give the returns 0, 0.1, 0.1. -/
example : ∃ R : ℕ → Arr (Fin 1) XR, demoReturns (id : Fin 1 → Fin 1)
    (priceFrame 4 (id : ℕ → ℕ) fun t _ => if t = 0 then some 100 else if t = 1 then none else if t = 2 then some 110 else some 121)
      = [(1, R 1), (2, R 2), (3, R 3)] ∧ R 1 0 = fin 0 ∧ R 2 0 = fin (110 / 100 - 1) ∧ R 3 0 = fin (121 / 110 - 1) := by
  classical
  have hp : PositivePrices 4 (fun t (_ : Fin 1) =>
      if t = 0 then some (100 : ℝ) else if t = 1 then none else if t = 2 then some 110 else some 121) := by
    intro t _ i q hq
    dsimp only at hq
    split_ifs at hq <;> cases hq <;> norm_num
  obtain ⟨R, h1, h2⟩ := C157_returns hp (id : ℕ → ℕ) (id : Fin 1 → Fin 1)
  refine ⟨R, ?_, ?_, ?_, ?_⟩
  · rw [h1, List.filter_eq_self.mpr]
    · rfl
    · intro t _
      simp only [decide_eq_true_iff]
      exact ⟨0, 0, by omega, rfl⟩
  · exact (h2 1 le_rfl (by norm_num) 0).2.1 rfl ⟨0, by norm_num, rfl⟩
  · refine (h2 2 (by norm_num) (by norm_num) 0).1 _ _ ⟨0, by norm_num, rfl, ?_⟩ ⟨2, le_rfl, rfl, fun u h3 h4 => by omega⟩
    intro u h3 h4
    obtain rfl : u = 1 := by omega
    rfl
  · exact (h2 3 (by norm_num) (by norm_num) 0).1 _ _ ⟨2, by norm_num, rfl, fun u h3 h4 => by omega⟩
      ⟨3, le_rfl, rfl, fun u h3 h4 => by omega⟩

/-! ### C158: the table of weights -/

open Classical in
theorem demo_represents {T : ℕ} {p : ℕ → Fin m → Option ℝ} (hp : PositivePrices T p) {tm : ℕ → τ} (htm : Increasing T tm)
    (columns : Fin n → Fin m) : ∃ (T' : ℕ) (tm' : ℕ → τ) (x : ℕ → Fin n → ℝ), (∀ s t, s < t → t < T' → tm' s < tm' t) ∧
      Represents (demoReturns columns (priceFrame T tm p)) true T' tm' x := by
  rw [demoReturns_spec hp]
  set l := (List.range T).filter fun t => decide (∃ j, (lastOpt p j t).isSome) with hl
  have hlt : ∀ t ∈ l, t < T := fun t ht => List.mem_range.mp (List.mem_filter.mp ht).1
  have hsort : l.Pairwise (· < ·) := List.Pairwise.filter _ List.pairwise_lt_range
  refine ⟨l.length, fun k => tm (l.getD k 0), fun k i => (returnOpt p (l.getD k 0) (columns i)).getD 0, ?_, ?_⟩
  · intro s t hst ht
    dsimp only
    rw [getD_lt (by omega), getD_lt ht]
    exact htm _ _ (List.pairwise_iff_getElem.mp hsort s t _ ht hst) (hlt _ (List.getElem_mem ht))
  · refine ⟨fun k => Arr.ofFn fun i => optXR (returnOpt p (l.getD k 0) (columns i)), ?_, ?_⟩
    · apply List.ext_getElem
      · simp
      · intro k h1 h2
        simp only [List.length_map] at h1
        simp only [List.getElem_map, List.getElem_range]
        rw [getD_lt h1]
    · intro t _ i
      rw [Arr.get_ofFn]
      dsimp only
      rcases returnOpt p (l.getD t 0) (columns i) with _ | v
      · exact Or.inr ⟨rfl, rfl, rfl⟩
      · exact Or.inl rfl

/-- the call of demo.py:53 with ordinary numbers as arguments -/
noncomputable def callDemo (label : XR × XR → L) (solver : (K : ℕ) → Solver n K) (columns : Fin n → Fin m)
    (pairs : List (ℝ × ℝ)) (mv mc : Int) (clipAt : Option ℝ) (mean : Bool) (window : ℕ) (prices : Frame τ (Fin m) XR) :
    Except Err (Dict τ (List (L × ℝ))) :=
  demoWeights label solver columns (pairs.map xrPair) mv mc (clipAt.map fin) mean window prices

theorem callDemo_eq (label : XR × XR → L) (solver : (K : ℕ) → Solver n K) (columns : Fin n → Fin m)
    (pairs : List (ℝ × ℝ)) (mv mc : Int) (clipAt : Option ℝ) (mean : Bool) (window : ℕ) (prices : Frame τ (Fin m) XR) :
    callDemo label solver columns pairs mv mc clipAt mean window prices = (do
      let c ← callEwmas label (demoReturns columns prices) pairs mv mc clipAt mean
      weightRows (c.solve solver (some window))) := rfl

theorem weightRows_ok {tr : Trace (EwmaResult L τ n)} {D : Dict τ (List (L × ℝ))} :
    weightRows tr = .ok D ↔ tr.err = none ∧ ∃ l, tr.items.mapM timeAndWeights = .ok l ∧ D = dictOf l := by
  unfold weightRows
  rcases tr.items.mapM timeAndWeights with e | l
  · simp
  · rcases tr.err with _ | e
    · simp [eq_comm]
    · simp

theorem exists_lastPair (label : XR × XR → L) {pairs : List (ℝ × ℝ)} (hne : pairs ≠ []) : ∃ q, LastPair label pairs q :=
  ⟨pairs.getLast hne, pairs.dropLast, [], (List.dropLast_append_getLast hne).symm, by simp⟩

/-- The run behind a table. -/
theorem demo_run (hn : 0 < n) (label : XR × XR → L) {f : Frame τ (Fin n) XR} {T : ℕ} {tm : ℕ → τ}
    (htm : ∀ s t, s < t → t < T → tm s < tm t) {x : ℕ → Fin n → ℝ} (hf : Represents f true T tm x)
    {pairs : List (ℝ × ℝ)} (hp : PosPairs pairs) (hne : pairs ≠ []) {mv mc : Int} {clipAt : Option ℝ} {mean : Bool}
    {c : EwmaComb L τ n} (h : callEwmas label f pairs mv mc clipAt mean = .ok c)
    (hlong : ∀ q ∈ pairs, ∀ rs, iteratedEwma f (ewmasArgs mv mc clipAt mean q).toArgs = .ok rs → 2 ≤ rs.length)
    {solver : (K : ℕ) → Solver n K} (hs : ∀ K, (solver K).Feasible) {window : ℕ}
    {l : List (τ × List (L × ℝ))} (herr : (c.solve solver (some window)).err = none)
    (hl : (c.solve solver (some window)).items.mapM timeAndWeights = .ok l) :
    ∃ P : Panel τ n c.labels.length, EwmaPanel label f pairs mv mc clipAt mean c.labels P ∧
      P.Gives (realReturns f) c.comb ∧ 2 ≤ P.len ∧
      P.Completes (solver _) (windowOf (some window) P.len) ∧
      (∀ t, windowOf (some window) P.len ≤ t → t < P.len → ∀ s, t - windowOf (some window) P.len < s → s ≤ t →
        ¬ MissingAt f (P.time s)) ∧
      l = (List.range' (windowOf (some window) P.len) (P.len - windowOf (some window) P.len)).map fun t =>
        (P.time t, List.ofFn fun k => (c.labels.get k, P.weightsAt (solver _) (windowOf (some window) P.len)
          (windowOf (some window) P.len) t k)) := by
  obtain ⟨P, hE, hP⟩ := ewmaPanel_of_call hn label htm hf hp hne mv mc clipAt mean h
  obtain ⟨q, hq⟩ := exists_lastPair label hne
  obtain ⟨rs, hrs, _⟩ := (C41_succeeds_iff hn label (distinct_of_lt htm) hf hp mv mc clipAt mean).mp ⟨c, h⟩ q hq.mem
  have hlen : 2 ≤ P.len := by rw [← (hE.results hq hrs).1]; exact hlong q hq.mem rs hrs
  refine ⟨P, hE, hP, hlen, ?_⟩
  set W := windowOf (some window) P.len with hW
  have hWe : W = effWindow (some window) (P.len - 1) := windowOf_eq _ _
  have hclean : ∀ t, W ≤ t → t < P.len → ∀ s, t - W < s → s ≤ t → P.time s ∉ c.missing := by
    intro t h1 h2 s h3 h4 h5
    rw [hWe] at h1 h3
    have := C70_missing_aborts hP hlen c.missing (solver _) (some window) none _ _ .all ⟨t, h1, h2, s, h3, h4, h5⟩
    simp only [EwmaComb.solve, this] at herr
    cases herr
  have heq := C70_missing_elsewhere hP hlen c.missing (solver _) (some window) none _ _ .all (by rw [← hWe]; exact hclean)
  have hrun := solve_run_none hP hlen (hs _) (some window)
  rw [← hWe] at hrun
  simp only [EwmaComb.solve, heq] at herr hl
  rcases hrun with ⟨_, htr⟩ | ⟨hg, k, hitems, hnr, hend⟩
  · rw [htr] at herr; cases herr
  · rcases hend with ⟨rfl, _⟩ | ⟨_, e, he, _⟩
    swap
    · rw [he] at herr; cases herr
    rw [hitems, List.map_map, List.mapM_map, mapM_ok_iff_forall₂] at hl
    have hsol : ∀ t, W ≤ t → t < P.len → ∃ w, P.outcome (solver _) W W t = .weights w := by
      intro t h1 h2
      obtain ⟨r, _, hr⟩ := forall₂_mem_left hl (List.mem_range'_1.mpr (show W ≤ t ∧ t < W + (P.len - W) by omega))
      simp only [Function.comp, Panel.item] at hr
      rcases ho : P.outcome (solver _) W W t with w | _ | e
      · exact ⟨w, rfl⟩
      · rw [ho] at hr; cases hr
      · rw [ho] at hr; cases hr
    refine ⟨⟨hP.ok, hg, hsol⟩, ?_, ?_⟩
    · intro t h1 h2 s h3 h4 hm
      exact hclean t h1 h2 s h3 h4 ((C70_from_ewmas_missing hn label (distinct_of_lt htm) hf hp mv mc clipAt mean h _).mpr hm)
    · have h2 : (List.range' W (P.len - W)).mapM (timeAndWeights ∘ (Option.map c.labelled ∘ P.item (solver _) W W))
          = .ok ((List.range' W (P.len - W)).map fun t =>
            (P.time t, List.ofFn fun k => (c.labels.get k, P.weightsAt (solver _) W W t k))) := by
        apply mapM_ok_of
        intro t ht
        rw [List.mem_range'_1] at ht
        obtain ⟨w, hw⟩ := hsol t ht.1 (by omega)
        simp only [Function.comp, Panel.item, Panel.weightsAt, hw, Panel.predict, Option.map_some, timeAndWeights,
          EwmaComb.labelled]
      have h3 := (mapM_ok_iff_forall₂ _ _ _).mpr hl
      exact Except.ok.inj (h3.symm.trans h2)

theorem keys_nodup {K : ℕ} {P : Panel τ n K} (hP : P.Ok) (W : ℕ) : ((List.range' W (P.len - W)).map P.time).Nodup := by
  apply List.Nodup.map_on
  · intro s hs t ht e
    rw [List.mem_range'_1] at hs ht
    exact time_inj hP (by omega) (by omega) e
  · exact List.nodup_range'

section
variable (label : XR × XR → L) {solver : (K : ℕ) → Solver n K} {columns : Fin n → Fin m} {pairs : List (ℝ × ℝ)} {mv mc : Int}
  {clipAt : Option ℝ} {mean : Bool} {window : ℕ} {T : ℕ} {tm : ℕ → τ} {p : ℕ → Fin m → Option ℝ}

/-- **C158.** The table of weights. Prices are positive, with gaps; half-lives are positive; every expert has two results or
more on the returns from the prices; the solver returns feasible weights. If the table is made, there is a panel of the experts
(`iterated_ewma` on the returns from the prices) such that the table has one row for each time from the window on, in order, with
one weight for each label. The weights are nonnegative with sum 1 and, with a solver that finds optima, the unique maximizers of the
log-likelihood of the window. No return in a window is missing. -/
theorem C158_table (hn : 0 < n) (hs : ∀ K, (solver K).Feasible) (hp : PosPairs pairs) (hne : pairs ≠ [])
    (htm : Increasing T tm) (hpr : PositivePrices T p) {D : Dict τ (List (L × ℝ))}
    (h : callDemo label solver columns pairs mv mc clipAt mean window (priceFrame T tm p) = .ok D)
    (hlong : ∀ q ∈ pairs, ∀ rs, iteratedEwma (demoReturns columns (priceFrame T tm p)) (ewmasArgs mv mc clipAt mean q).toArgs
      = .ok rs → 2 ≤ rs.length) :
    ∃ (labels : List L) (P : Panel τ n labels.length) (w : ℕ → Vec labels.length),
      EwmaPanel label (demoReturns columns (priceFrame T tm p)) pairs mv mc clipAt mean labels P ∧
      D = (List.range' (windowOf (some window) P.len) (P.len - windowOf (some window) P.len)).map (fun t =>
        (P.time t, List.ofFn fun k => (labels.get k, w t k))) ∧
      ∀ t, windowOf (some window) P.len ≤ t → t < P.len →
        Simplex (w t) ∧
        ((∀ K, (solver K).Exact) → P.Optimal (windowOf (some window) P.len) t (w t) ∧
          ∀ w', P.Optimal (windowOf (some window) P.len) t w' → w' = w t) ∧
        ∀ s, t - windowOf (some window) P.len < s → s ≤ t →
          ¬ MissingAt (demoReturns columns (priceFrame T tm p)) (P.time s) := by
  rw [callDemo_eq, bind_ok_iff _ _ _] at h
  obtain ⟨c, hc, hw⟩ := h
  obtain ⟨herr, l, hl, rfl⟩ := weightRows_ok.mp hw
  obtain ⟨T', tm', x, htm', hf⟩ := demo_represents hpr htm columns
  obtain ⟨P, hE, hP, hlen, hC, hclean, rfl⟩ := demo_run hn label htm' hf hp hne hc hlong hs herr hl
  refine ⟨c.labels, P, P.weightsAt (solver _) (windowOf (some window) P.len) (windowOf (some window) P.len), hE, ?_, ?_⟩
  · apply dictOf_nodup
    rw [List.map_map]
    exact keys_nodup hP.ok _
  · intro t h1 h2
    set W := windowOf (some window) P.len with hW
    obtain ⟨w, hout⟩ := hC.solved t h1 h2
    have hwat : P.weightsAt (solver _) W W t = w := by unfold Panel.weightsAt; rw [hout]
    refine ⟨?_, ?_, hclean t h1 h2⟩
    · rw [hwat]
      have := hout
      unfold Panel.outcome at this
      rw [range'_concat_params P W W _ h1] at this
      exact hs _ _ _ _ this
    · intro hex
      have hgr := hC.gram t h1 h2
      have hopt := best_optimal hC.ok hP.experts h1 h2 hgr
      rw [hwat, outcome_exact hC.ok hP.experts h1 h1 h2 hgr (hex _) hout]
      exact ⟨hopt, fun w' hw' => optimal_unique hC.ok h1 h2 hgr hw' hopt⟩

/-- **C158.** The currency, or the size of a share, does not matter for the table. -/
theorem C158_units (hpr : PositivePrices T p) (c : Fin m → ℝ) (hc : ∀ i, 0 < c i) :
    callDemo label solver columns pairs mv mc clipAt mean window (priceFrame T tm fun t i => (p t i).map fun q => c i * q)
      = callDemo label solver columns pairs mv mc clipAt mean window (priceFrame T tm p) := by
  rw [callDemo_eq, callDemo_eq, C157_units hpr c hc]

theorem priceFrame_append {T T' : ℕ} (hT : T ≤ T') (tm : ℕ → τ) (p : ℕ → Fin m → Option ℝ) :
    priceFrame T' tm p = priceFrame T tm p ++ (priceFrame T' tm p).drop T := by
  have : priceFrame T tm p = (priceFrame T' tm p).take T := by
    unfold priceFrame
    rw [← List.map_take, List.take_range, min_eq_left hT]
  rw [this, List.take_append_drop]

/-- **C158.** No look-ahead: if the table is made from `T'` rows of prices, the table from the first `T` of them is its first part,
as long as each expert has more results on these rows than the window has. Its size is the number of results less the window. -/
theorem C158_no_lookahead (hn : 0 < n) (hs : ∀ K, (solver K).Feasible) (hp : PosPairs pairs) (hne : pairs ≠ [])
    {T' : ℕ} (hT : T ≤ T') (htm : Increasing T' tm) (hpr : PositivePrices T' p) (hW : 0 < window) {D' : Dict τ (List (L × ℝ))}
    (h : callDemo label solver columns pairs mv mc clipAt mean window (priceFrame T' tm p) = .ok D')
    (hlong : ∀ q ∈ pairs, ∃ rs, iteratedEwma (demoReturns columns (priceFrame T tm p)) (ewmasArgs mv mc clipAt mean q).toArgs
      = .ok rs ∧ window < rs.length) :
    ∃ D, callDemo label solver columns pairs mv mc clipAt mean window (priceFrame T tm p) = .ok D ∧ D <+: D' ∧
      ∀ q ∈ pairs, ∀ rs, iteratedEwma (demoReturns columns (priceFrame T tm p)) (ewmasArgs mv mc clipAt mean q).toArgs
        = .ok rs → D.length = rs.length - window := by
  have h0 := h
  rw [callDemo_eq, bind_ok_iff _ _ _] at h
  obtain ⟨c', hc', hw⟩ := h
  obtain ⟨herr, l', hl', rfl⟩ := weightRows_ok.mp hw
  obtain ⟨T1, tm1, x, htm1, hf⟩ := demo_represents hpr htm columns
  have hf1 := hf
  obtain ⟨g, hg⟩ := demoReturns_append columns (priceFrame T tm p) ((priceFrame T' tm p).drop T)
  rw [← priceFrame_append hT] at hg
  have hc1 := hc'
  rw [hg] at hf hc'
  have hnd := represents_nodup (distinct_of_lt htm1) hf
  have hnone : ∀ q ∈ pairs, iteratedEwma (demoReturns columns (priceFrame T tm p)) (ewmasArgs mv mc clipAt mean q).toArgs
      ≠ .error .indexError := by
    intro q hq e
    obtain ⟨rs, hrs, _⟩ := hlong q hq
    rw [hrs] at e; cases e
  obtain ⟨c, hc⟩ : ∃ c, callEwmas label (demoReturns columns (priceFrame T tm p)) pairs mv mc clipAt mean = .ok c := by
    rcases C129_earlier_call hn label htm1 hf hp mv mc clipAt mean hc' with h1 | ⟨_, q, hq, e⟩
    · exact h1
    · exact absurd e (hnone q hq)
  have hall : ∀ q ∈ pairs, ∀ rs, iteratedEwma (demoReturns columns (priceFrame T tm p)) (ewmasArgs mv mc clipAt mean q).toArgs
      = .ok rs → window < rs.length := by
    intro q hq rs hrs
    obtain ⟨rs', hrs', hlt⟩ := hlong q hq
    rw [hrs] at hrs'; cases hrs'
    exact hlt
  have hlong' : ∀ q ∈ pairs, ∀ rs, iteratedEwma (demoReturns columns (priceFrame T' tm p)) (ewmasArgs mv mc clipAt mean q).toArgs
      = .ok rs → window < rs.length := by
    intro q hq rs hrs
    obtain ⟨rs', hrs', hlt⟩ := hlong q hq
    obtain ⟨rs1, h1, _⟩ := C02_no_lookahead_ok (by rfl) _ g _ hnd hrs'
    rw [hg, h1] at hrs
    cases hrs
    rw [List.length_append]; omega
  obtain ⟨P', hE', hP', hlen', hC', _, hrows⟩ := demo_run hn label htm1 hf1 hp hne hc1
    (fun q hq rs hrs => by have := hlong' q hq rs hrs; omega) hs herr hl'
  have hwin : window < P'.len := by
    obtain ⟨q, hq⟩ := exists_lastPair label hne
    obtain ⟨rs, hrs, _⟩ := (C41_succeeds_iff hn label (distinct_of_lt htm1) hf1 hp mv mc clipAt mean).mp ⟨c', hc1⟩ q hq.mem
    rw [← (hE'.results hq hrs).1]
    exact hlong' q hq.mem rs hrs
  have hWe : windowOf (some window) P'.len = window := by
    rw [windowOf_eq]; exact eff_window hW (by omega)
  have hne' : (c'.solve solver (some window)).items ≠ [] := by
    intro e
    rw [e] at hl'
    have : l' = [] := by cases hl'; rfl
    rw [this, hWe] at hrows
    have := congrArg List.length hrows
    simp at this
    omega
  obtain ⟨hpre, hend⟩ := C129_no_lookahead hn label htm1 hf hp hne mv mc clipAt mean hc hc' solver hs window hW hall hne'
  obtain ⟨herr0, hcount⟩ := hend herr
  obtain ⟨rest, hrest⟩ := hpre
  have hl2 := hl'
  rw [← hrest, mapM_ok_iff_forall₂] at hl2
  obtain ⟨l1, hl1, l2, e⟩ : ∃ l1, List.Forall₂ (fun a b => timeAndWeights a = .ok b) (c.solve solver (some window)).items l1 ∧
      ∃ l2, l' = l1 ++ l2 := by
    refine ⟨l'.take (c.solve solver (some window)).items.length, ?_, l'.drop (c.solve solver (some window)).items.length,
      (List.take_append_drop _ _).symm⟩
    have := List.forall₂_take (c.solve solver (some window)).items.length hl2
    rwa [List.take_left] at this
  have hlen1 := hl1.length_eq
  have hk' : (dictOf l') = l' := by
    rw [hrows]
    apply dictOf_nodup
    rw [List.map_map]
    exact keys_nodup hP'.ok _
  have hk : dictOf l1 = l1 := by
    apply dictOf_nodup
    have hnd' : (l'.map Prod.fst).Nodup := by
      rw [hrows, List.map_map]
      exact keys_nodup hP'.ok _
    rw [e, List.map_append] at hnd'
    exact (List.nodup_append.mp hnd').1
  refine ⟨l1, ?_, ?_, ?_⟩
  · rw [callDemo_eq, bind_ok_iff _ _ _]
    exact ⟨c, hc, weightRows_ok.mpr ⟨herr0, l1, (mapM_ok_iff_forall₂ _ _ _).mpr hl1, hk.symm⟩⟩
  · rw [hk', e]
    exact List.prefix_append _ _
  · intro q hq rs hrs
    rw [← hlen1, hcount q hq rs hrs]

end

namespace DemoEx

/-- returns of two assets -/
noncomputable def ret (t : ℕ) (i : Fin 2) : ℝ := if i = 0 then 1 / ((t : ℝ) + 1) else if t = 1 then 0 else 1 / 2

theorem fine : E2EEx.Fine ret := by
  refine ⟨fun t => ?_, by norm_num [ret], by norm_num [ret]⟩
  simp only [ret, if_true]
  positivity

theorem ret_nonneg (t : ℕ) (i : Fin 2) : 0 ≤ ret t i := by
  unfold ret
  split_ifs <;> positivity

/-- prices with these returns, the second asset first -/
noncomputable def price (t : ℕ) (i : Fin 2) : ℝ := ∏ s ∈ Finset.range t, (1 + ret s (1 - i))

theorem price_pos (t : ℕ) (i : Fin 2) : 0 < price t i :=
  Finset.prod_pos fun s _ => by have := ret_nonneg s (1 - i); linarith

noncomputable def prices (T : ℕ) : Frame ℕ (Fin 2) XR := priceFrame T id fun t i => some (price t i)

def columns (i : Fin 2) : Fin 2 := 1 - i

theorem returns_eq (T : ℕ) : demoReturns columns (prices (T + 1))
    = (List.range T).map fun t => (t + 1, Arr.ofFn fun i => fin (ret t i)) := by
  unfold prices
  rw [C157_complete (by norm_num) (fun t _ i => price_pos t i)]
  apply List.ext_getElem
  · simp
  · intro t h1 h2
    simp only [List.getElem_map, List.getElem_range', List.getElem_range]
    have e : ∀ i, price (1 + 1 * t) (columns i) / price (1 + 1 * t - 1) (columns i) - 1 = ret t i := by
      intro i
      have h := price_pos t (columns i)
      have h' : price (t + 1) (columns i) = price t (columns i) * (1 + ret t i) := by
        unfold price
        rw [Finset.prod_range_succ]
        congr 3
        show 1 - (1 - i) = i
        fin_cases i <;> rfl
      rw [show 1 + 1 * t = t + 1 by omega, show t + 1 - 1 = t by omega, h']
      field_simp
      ring
    simp only [e, id]
    rw [show 1 + 1 * t = t + 1 by omega]

theorem represents (T : ℕ) : Represents (demoReturns columns (prices (T + 1))) true T (fun t => t + 1) ret :=
  ⟨_, returns_eq T, fun t _ i => Or.inl (by rw [Arr.get_ofFn])⟩

/-- a row of the table -/
def timeWeights : Option (EwmaResult (XR × XR) ℕ 2) → ℕ × List ((XR × XR) × ℝ)
  | none => (0, [])
  | some r => (r.time, r.weights)

theorem runs (T : ℕ) (hT : 3 ≤ T) [DecidableEq (XR × XR)] :
    ∃ D, callDemo id (exactSolver 2) columns E2EEx.pairs 1 2 none false 1 (prices (T + 1)) = .ok D ∧ D.length = T - 2 := by
  have htm : ∀ s t : ℕ, s < t → t < T → s + 1 < t + 1 := fun s t h _ => by omega
  have hmiss : ∀ t, 2 ≤ t → t < T → ¬ ∃ row, (t + 1, row) ∈ demoReturns columns (prices (T + 1)) ∧ ∃ i, row i = nan := by
    rintro t _ _ ⟨row, hrow, i, hi⟩
    rw [returns_eq] at hrow
    obtain ⟨u, _, e⟩ := List.mem_map.mp hrow
    simp only [Prod.mk.injEq] at e
    rw [← e.2, Arr.get_ofFn] at hi
    cases hi
  obtain ⟨c, hc⟩ := E2EEx.succeeds_of fine (by omega) (distinct_of_lt htm) (represents T)
  obtain ⟨h1, h2, h3⟩ := E2EEx.solves_of fine hT htm (represents T) hmiss hc
  have hm : (c.solve (exactSolver 2) (some 1)).items.mapM timeAndWeights
      = .ok ((c.solve (exactSolver 2) (some 1)).items.map timeWeights) := by
    apply mapM_ok_of
    intro o ho
    rcases o with _ | r
    · exact absurd ho h3
    · rfl
  obtain ⟨P, _, hP, _, _, _, hl⟩ := demo_run (by norm_num) id htm (represents T) E2EEx.pos (by simp [E2EEx.pairs]) hc (by
    intro q hq rs hrs
    rw [E2EEx.runs_of fine (by omega) (distinct_of_lt htm) (represents T) q (E2EEx.pos q hq)] at hrs
    cases hrs
    rw [List.length_map, E2EEx.rowsFrom_length]; omega) (fun K => exactSolver_exact.feasible) h2 hm
  refine ⟨dictOf ((c.solve (exactSolver 2) (some 1)).items.map timeWeights), ?_, ?_⟩
  · rw [callDemo_eq, bind_ok_iff _ _ _]
    exact ⟨c, hc, weightRows_ok.mpr ⟨h2, _, hm, rfl⟩⟩
  · rw [dictOf_nodup, List.length_map, h1]
    rw [hl, List.map_map]
    exact keys_nodup hP.ok _

/-- The hypotheses of C158 are met: 5 rows of prices give a table with 2 rows, 6 rows one with 3 rows; the first is the
first part of the second. -/
example [DecidableEq (XR × XR)] : ∃ D D',
    callDemo id (exactSolver 2) columns E2EEx.pairs 1 2 none false 1 (prices 5) = .ok D ∧ D.length = 2 ∧
    callDemo id (exactSolver 2) columns E2EEx.pairs 1 2 none false 1 (prices 6) = .ok D' ∧ D'.length = 3 ∧ D <+: D' ∧
    (∀ q ∈ E2EEx.pairs, ∀ rs, iteratedEwma (demoReturns columns (prices 6)) (ewmasArgs 1 2 none false q).toArgs = .ok rs →
      2 ≤ rs.length) := by
  obtain ⟨D', h1, h2⟩ := runs 5 (by norm_num)
  have key : ∀ T, 0 < T → ∀ q ∈ E2EEx.pairs, ∃ rs,
      iteratedEwma (demoReturns columns (prices (T + 1))) (ewmasArgs 1 2 none false q).toArgs = .ok rs ∧ rs.length = T - 1 := by
    intro T hT q hq
    refine ⟨_, E2EEx.runs_of fine hT (distinct_of_lt fun s t h _ => by omega) (represents T) q (E2EEx.pos q hq), ?_⟩
    rw [List.length_map, E2EEx.rowsFrom_length]
  obtain ⟨D, h3, h4, h5⟩ := C158_no_lookahead id (T := 5) (T' := 6) (tm := id) (by norm_num)
    (fun K => (exactSolver_exact (n := 2) (K := K)).feasible) E2EEx.pos
    (by simp [E2EEx.pairs]) (by norm_num) (fun s t h _ => h) (fun t _ i q hq => by cases hq; exact price_pos t i) (by norm_num) h1
    (fun q hq => by
      obtain ⟨rs, h, e⟩ := key 4 (by norm_num) q hq
      exact ⟨rs, h, by omega⟩)
  refine ⟨D, D', h3, ?_, h1, h2, h4, ?_⟩
  · obtain ⟨rs, h, e⟩ := key 4 (by norm_num) (2, 3) (by simp [E2EEx.pairs])
    rw [h5 (2, 3) (by simp [E2EEx.pairs]) rs h, e]
  · intro q hq rs hrs
    obtain ⟨rs', h, e⟩ := key 5 (by norm_num) q hq
    rw [h] at hrs; cases hrs
    omega

end DemoEx

end CovPred
