import Verif.Model.YearlyWeights
import Verif.Props.YearlySR
import Verif.Props.Blend
import Verif.Props.CmMeanUnits
import Verif.Lemmas.FromEwmas
import Verif.Lemmas.RhoBands
import Verif.Lemmas.Backtests
import Mathlib.Data.List.GetD

/-
Property C173: the yearly weights and effective half-lives of the notebooks.
-/
set_option linter.unusedSectionVars false
namespace CovPred

open Finset

variable {τ : Type} [LinearOrder τ] {n K : ℕ}

/-- The dates of the dictionary that lie in year `y`. -/
def datesOf (year : τ → ℤ) (w : Dict τ (Vec K)) (y : ℤ) : List (τ × Vec K) := w.filter fun p => year p.1 = y

/-- **C173.** The dictionary has the weights of the results, each on the simplex (with a solver that keeps to the constraints);
one entry for every date with a result. -/
theorem C173_weights (c : Comb τ n K) (solver : Solver n K) (hs : solver.Feasible) (window : Option ℕ) (times : Option (List τ))
    {w : Dict τ (Vec K)} (hw : weightsDict (c.solve solver window times) = .ok w) :
    (w.map Prod.fst).Nodup ∧ (∀ t v, (t, v) ∈ w → Simplex v ∧ ∃ r, some r ∈ (c.solve solver window times).items ∧ r.time = t ∧
      r.weights = v) ∧ ∀ r, some r ∈ (c.solve solver window times).items → ∃ v, (r.time, v) ∈ w := by
  unfold weightsDict at hw
  rcases he : (c.solve solver window times).err with _ | e
  · rw [he] at hw
    rw [bind_ok_iff] at hw
    obtain ⟨rs, hrs, hw⟩ := hw
    have hw := Except.ok.inj hw
    have hf := (mapM_ok_iff_forall₂ _ _ _).mp hrs
    have hmem : ∀ r, r ∈ rs → some r ∈ (c.solve solver window times).items := by
      intro r hr
      obtain ⟨o, ho, h⟩ := forall₂_mem_right hf hr
      rcases o with _ | r'
      · cases h
      · rw [← Except.ok.inj h]; exact ho
    obtain ⟨h1, h2, _⟩ := dictOf_keys (rs.map fun r => (r.time, r.weights))
    subst hw
    refine ⟨h1, ?_, ?_⟩
    · intro t v htv
      obtain ⟨pre, post, e, _⟩ := dictOf_last _ _ _ htv
      have hm : (t, v) ∈ rs.map fun r => (r.time, r.weights) := by rw [e]; simp
      obtain ⟨r, hr, e⟩ := List.mem_map.mp hm
      rw [Prod.mk.injEq] at e
      refine ⟨?_, r, hmem r hr, e⟩
      rw [← e.2]
      exact C22_weights_simplex c solver hs window times r (hmem r hr)
    · intro r hr
      obtain ⟨r', hr', h⟩ := forall₂_mem_left hf hr
      have e := Except.ok.inj h
      subst e
      have := (h2 r.time).mpr (by rw [List.map_map]; exact List.mem_map.mpr ⟨r, hr', rfl⟩)
      obtain ⟨q, hq, e⟩ := List.mem_map.mp this
      exact ⟨q.2, by rw [← e]; exact hq⟩
  · rw [he] at hw; cases hw

/-- **C173.** The third table of the cells with means (C170) is this dictionary, for the combination that they solve. -/
theorem C173_cells {solver : Solver n K} {covPairs meanPairs : List (ℝ × ℝ)} {returns : Dict τ (Vec n)} {mv mc window : ℕ} {lamda : ℝ}
    {d : MeanTables τ n K} (hd : cmMean solver covPairs meanPairs returns mv mc lamda window = .ok d) :
    ∃ sigmas mus, ∃ c : Comb τ n K, fromSigmas sigmas returns (some mus) = .ok c ∧
      weightsDict (c.solve solver (some window) none) = .ok d.weights := by
  unfold cmMean at hd
  dsimp only at hd
  rw [bind_ok_iff] at hd
  obtain ⟨experts, _, hd⟩ := hd
  by_cases hK : K = 0
  · rw [if_pos hK] at hd; cases hd
  rw [if_neg hK] at hd
  change (_ : Except Err _) = _ at hd
  rw [bind_ok_iff] at hd
  obtain ⟨_, _, hd⟩ := hd
  rw [bind_ok_iff] at hd
  obtain ⟨c, hc, hd⟩ := hd
  refine ⟨_, _, c, hc, ?_⟩
  unfold meanTables at hd
  unfold weightsDict
  rcases he : (c.solve solver (some window) none).err with _ | e
  · rw [he] at hd
    dsimp only at hd ⊢
    rw [bind_ok_iff] at hd ⊢
    obtain ⟨rs, hrs, hd⟩ := hd
    exact ⟨rs, hrs, by rw [← Except.ok.inj hd]; rfl⟩
  · rw [he] at hd; cases hd

/-- There is such a dictionary, with two dates. -/
example : ∃ c w, weightsDict (Comb.solve (τ := ℕ) c CmMeanEx.solver (some 1) none) = .ok w ∧ CmMeanEx.solver.Feasible ∧
    w.map Prod.fst = [3, 4] := by
  obtain ⟨d, hd⟩ := CmMeanEx.run (T := 5) (lamda := 0.05) (by norm_num) le_rfl (by norm_num)
  obtain ⟨h1, _, h3⟩ := C170_days (CmMeanEx.setup (by norm_num)) 0.05 hd
  obtain ⟨_, _, c, _, hc⟩ := C173_cells hd
  refine ⟨c, _, hc, exactSolver_exact.feasible, ?_⟩
  rw [h3, h1]
  rfl

/-- **C173.** There is a table exactly if there are weights (otherwise `TypeError`): a row for every year from the first to the
last one of the dates whose last day lies between start and end, in order. -/
theorem C173_years (year : τ → ℤ) (lastDay : ℤ → τ) (w : Dict τ (Vec K)) (start stop : τ) :
    (w = [] → yearlyWeights year lastDay w start stop = .error .typeError) ∧
    (w ≠ [] → ∃ table, yearlyWeights year lastDay w start stop = .ok table ∧ (table.map Prod.fst).Pairwise (· < ·) ∧
      ∀ y, y ∈ table.map Prod.fst ↔ (∃ p ∈ w, year p.1 ≤ y) ∧ (∃ p ∈ w, y ≤ year p.1) ∧ start ≤ lastDay y ∧
        lastDay y ≤ stop) := by
  constructor
  · rintro rfl; rfl
  · intro hne
    refine ⟨_, if_neg (fun h => hne (List.length_eq_zero_iff.mp h)), ?_, ?_⟩
    · rw [List.filter_map, List.map_map]
      have e : (Prod.fst ∘ fun y => (y, fun k => nanMean (columnOfYear year w y k))) = (id : ℤ → ℤ) := rfl
      rw [e, List.map_id]
      exact (yearBins_sorted _).filter _
    · intro y
      rw [List.filter_map, List.map_map]
      have e : (Prod.fst ∘ fun y => (y, fun k => nanMean (columnOfYear year w y k))) = (id : ℤ → ℤ) := rfl
      rw [e, List.map_id, List.mem_filter, mem_yearBins]
      simp only [List.mem_map, Function.comp, decide_eq_true_eq]
      constructor
      · rintro ⟨⟨⟨_, ⟨p, hp, rfl⟩, h1⟩, _, ⟨q, hq, rfl⟩, h2⟩, h3⟩
        exact ⟨⟨p, hp, h1⟩, ⟨q, hq, h2⟩, h3⟩
      · rintro ⟨⟨p, hp, h1⟩, ⟨q, hq, h2⟩, h3⟩
        exact ⟨⟨⟨_, ⟨p, hp, rfl⟩, h1⟩, _, ⟨q, hq, rfl⟩, h2⟩, h3⟩

theorem nanMean_map_some {A : Type} (l : List A) (f : A → ℝ) :
    nanMean (l.map fun a => some (f a)) = if l = [] then none else some ((l.map f).sum / l.length) := by
  unfold nanMean
  have e : (l.map fun a => some (f a)).filterMap id = l.map f := by
    rw [List.filterMap_map]
    have : (id ∘ fun a => some (f a)) = fun a => some (f a) := rfl
    rw [this, List.filterMap_eq_map' ]
  rw [e]
  simp only [List.length_map, List.length_eq_zero_iff]

theorem entry_of {year : τ → ℤ} {lastDay : ℤ → τ} {w : Dict τ (Vec K)} {start stop : τ} {table : List (ℤ × (Fin K → Option ℝ))}
    (h : yearlyWeights year lastDay w start stop = .ok table) {y : ℤ} {m : Fin K → Option ℝ} (hm : (y, m) ∈ table) :
    m = fun k => if datesOf year w y = [] then none
      else some (((datesOf year w y).map fun p => p.2 k).sum / (datesOf year w y).length) := by
  unfold yearlyWeights at h
  split at h
  · cases h
  · have h := Except.ok.inj h
    subst h
    rw [List.mem_filter, List.mem_map] at hm
    obtain ⟨⟨y', _, e⟩, _⟩ := hm
    rw [Prod.mk.injEq] at e
    obtain ⟨rfl, rfl⟩ := e
    funext k
    exact nanMean_map_some (w.filter fun p => year p.1 = y') fun p => p.2 k

theorem sum_swap {A : Type} (l : List A) (f : A → Fin K → ℝ) : ∑ k, (l.map fun a => f a k).sum = (l.map fun a => ∑ k, f a k).sum := by
  induction l with
  | nil => simp
  | cons a l ih => simp only [List.map_cons, List.sum_cons, Finset.sum_add_distrib, ih]

theorem sum_bounds {A : Type} (l : List A) (f : A → ℝ) {lo hi : ℝ} (h : ∀ a ∈ l, lo ≤ f a ∧ f a ≤ hi) :
    l.length * lo ≤ (l.map f).sum ∧ (l.map f).sum ≤ l.length * hi := by
  induction l with
  | nil => simp
  | cons a l ih =>
    obtain ⟨h1, h2⟩ := ih fun b hb => h b (List.mem_cons_of_mem _ hb)
    obtain ⟨h3, h4⟩ := h a List.mem_cons_self
    simp only [List.map_cons, List.sum_cons, List.length_cons]
    push_cast
    constructor <;> linarith

/-- **C173.** The row of a year is the average of the weights over the dates of the dictionary in that year, which again is on
the simplex; `nan` if there are no dates in it. -/
theorem C173_average {year : τ → ℤ} {lastDay : ℤ → τ} {w : Dict τ (Vec K)} {start stop : τ}
    {table : List (ℤ × (Fin K → Option ℝ))} (h : yearlyWeights year lastDay w start stop = .ok table) {y : ℤ}
    {m : Fin K → Option ℝ} (hm : (y, m) ∈ table) :
    ((∀ p ∈ w, year p.1 ≠ y) → ∀ k, m k = none) ∧
    ((∃ p ∈ w, year p.1 = y) → ∃ a : Vec K, (∀ k, m k = some (a k)) ∧
      (∀ k, (datesOf year w y).length * a k = ((datesOf year w y).map fun p => p.2 k).sum) ∧
      ((∀ p ∈ w, Simplex p.2) → Simplex a)) := by
  rw [entry_of h hm]
  constructor
  · intro hno k
    refine if_pos ?_
    unfold datesOf
    rw [List.filter_eq_nil_iff]
    intro p hp
    simpa using hno p hp
  · rintro ⟨p, hp, hy⟩
    have hne : datesOf year w y ≠ [] := by
      intro e
      have : p ∈ datesOf year w y := List.mem_filter.mpr ⟨hp, by simpa using hy⟩
      rw [e] at this; cases this
    have hlen : (0 : ℝ) < (datesOf year w y).length := by exact_mod_cast List.length_pos_of_ne_nil hne
    refine ⟨fun k => ((datesOf year w y).map fun p => p.2 k).sum / (datesOf year w y).length, fun k => if_neg hne, ?_, ?_⟩
    · intro k
      dsimp only
      rw [mul_div_assoc', mul_div_cancel_left₀ _ hlen.ne']
    · intro hw
      have hw' : ∀ p ∈ datesOf year w y, Simplex p.2 := fun p hp => hw p (List.mem_of_mem_filter hp)
      constructor
      · intro k
        apply div_nonneg _ hlen.le
        apply List.sum_nonneg
        intro x hx
        obtain ⟨p, hp, rfl⟩ := List.mem_map.mp hx
        exact (hw' p hp).1 k
      · rw [← Finset.sum_div, sum_swap]
        have : ((datesOf year w y).map fun p => ∑ k, p.2 k) = (datesOf year w y).map fun _ => (1 : ℝ) := by
          apply List.map_congr_left
          intro p hp
          exact (hw' p hp).2
        rw [this, List.map_const', List.sum_replicate, nsmul_eq_mul, mul_one, div_self hlen.ne']

/-- The half-life that the weights of one date stand for. -/
def blendHalflife (hl : List ℝ) (v : Vec K) : ℝ := ∑ k, v k * hl.getD k.1 0

theorem blend_bounds {hl : List ℝ} (hlen : hl.length = K) {v : Vec K} (hv : Simplex v) {lo hi : ℝ}
    (hb : ∀ h ∈ hl, lo ≤ h ∧ h ≤ hi) : lo ≤ blendHalflife hl v ∧ blendHalflife hl v ≤ hi := by
  have hk : ∀ k : Fin K, lo ≤ hl.getD k.1 0 ∧ hl.getD k.1 0 ≤ hi := by
    intro k
    have hlt : k.1 < hl.length := by rw [hlen]; exact k.2
    rw [List.getD_eq_getElem _ _ hlt]
    exact hb _ (List.getElem_mem hlt)
  unfold blendHalflife
  constructor
  · calc lo = ∑ k, v k * lo := by rw [← Finset.sum_mul, hv.2, one_mul]
      _ ≤ _ := Finset.sum_le_sum fun k _ => mul_le_mul_of_nonneg_left (hk k).1 (hv.1 k)
  · calc _ ≤ ∑ k, v k * hi := Finset.sum_le_sum fun k _ => mul_le_mul_of_nonneg_left (hk k).2 (hv.1 k)
      _ = hi := by rw [← Finset.sum_mul, hv.2, one_mul]

theorem filterMap_finRange (f : Fin K → Option ℝ) (g : Fin K → ℝ) (h : ∀ k, f k = some (g k)) :
    ((List.finRange K).filterMap f).sum = ∑ k, g k := by
  have : f = fun k => some (g k) := funext h
  rw [this, List.filterMap_eq_map', ← List.ofFn_eq_map, List.sum_ofFn]

theorem halflife_rows {year : τ → ℤ} {lastDay : ℤ → τ} {w : Dict τ (Vec K)} {start stop : τ}
    {table : List (ℤ × (Fin K → Option ℝ))} (h : yearlyWeights year lastDay w start stop = .ok table) {hl : List ℝ}
    (hlen : hl.length = K) : effectiveHalflife table hl = .ok (table.map fun p => (p.1,
      ((datesOf year w p.1).map fun q => blendHalflife hl q.2).sum / (datesOf year w p.1).length)) := by
  unfold effectiveHalflife
  rw [if_neg (not_not.mpr hlen)]
  congr 1
  apply List.map_congr_left
  rintro ⟨y, m⟩ hm
  have he := entry_of h hm
  dsimp only
  congr 1
  by_cases hd : datesOf year w y = []
  · have : ∀ k, m k = none := fun k => by rw [he]; exact if_pos hd
    have e : (fun k : Fin K => (m k).map fun x => x * hl.getD k.1 0) = fun _ => none := by
      funext k; rw [this]; rfl
    rw [e, hd]
    simp
  · rw [filterMap_finRange _ fun k => ((datesOf year w y).map fun p => p.2 k).sum / (datesOf year w y).length * hl.getD k.1 0]
    · unfold blendHalflife
      rw [← sum_swap (datesOf year w y) fun q k => q.2 k * hl.getD k.1 0, Finset.sum_div]
      apply Finset.sum_congr rfl
      intro k _
      rw [List.sum_map_mul_right]
      ring
    · intro k
      rw [he]
      dsimp only
      rw [if_neg hd]
      rfl

/-- **C173.** The number of half-lives must be that of the experts (`ValueError` otherwise). Then the effective half-life of a
year is the average, over its dates, of the weighted half-lives of the experts, so between the least and the greatest half-life;
but 0 for a year without dates. -/
theorem C173_effective {year : τ → ℤ} {lastDay : ℤ → τ} {w : Dict τ (Vec K)} {start stop : τ}
    {table : List (ℤ × (Fin K → Option ℝ))} (h : yearlyWeights year lastDay w start stop = .ok table) (hl : List ℝ) :
    (hl.length ≠ K → effectiveHalflife table hl = .error .valueError ∧ meanHalflife table hl = .error .valueError) ∧
    (hl.length = K → ∃ rows, effectiveHalflife table hl = .ok rows ∧ rows.map Prod.fst = table.map Prod.fst ∧
      ∀ y e, (y, e) ∈ rows →
        ((∀ p ∈ w, year p.1 ≠ y) → e = 0) ∧
        ((∃ p ∈ w, year p.1 = y) → (datesOf year w y).length * e = ((datesOf year w y).map fun p => ∑ k, p.2 k * hl.getD k.1 0).sum ∧
          ∀ lo hi, (∀ p ∈ w, Simplex p.2) → (∀ x ∈ hl, lo ≤ x ∧ x ≤ hi) → lo ≤ e ∧ e ≤ hi)) := by
  constructor
  · intro hlen
    have : effectiveHalflife table hl = .error .valueError := if_pos hlen
    refine ⟨this, ?_⟩
    unfold meanHalflife
    rw [this]; rfl
  · intro hlen
    refine ⟨_, halflife_rows h hlen, by rw [List.map_map]; rfl, ?_⟩
    intro y e hye
    obtain ⟨p, hp, hpe⟩ := List.mem_map.mp hye
    rw [Prod.mk.injEq] at hpe
    obtain ⟨rfl, rfl⟩ := hpe
    constructor
    · intro hno
      have hd : datesOf year w p.1 = [] := by
        unfold datesOf
        rw [List.filter_eq_nil_iff]
        intro q hq
        simpa using hno q hq
      rw [hd]; simp
    · rintro ⟨q, hq, hy⟩
      have hne : datesOf year w p.1 ≠ [] := by
        intro e
        have : q ∈ datesOf year w p.1 := List.mem_filter.mpr ⟨hq, by simpa using hy⟩
        rw [e] at this; cases this
      have hpos : (0 : ℝ) < (datesOf year w p.1).length := by exact_mod_cast List.length_pos_of_ne_nil hne
      constructor
      · rw [mul_div_assoc', mul_div_cancel_left₀ _ hpos.ne']; rfl
      · intro lo hi hw hb
        obtain ⟨h1, h2⟩ := sum_bounds (datesOf year w p.1) (fun q => blendHalflife hl q.2) (lo := lo) (hi := hi)
          fun a ha => blend_bounds hlen (hw a (List.mem_of_mem_filter ha)) hb
        rw [le_div_iff₀ hpos, div_le_iff₀ hpos]
        constructor <;> linarith

/-- **C173.** The mean half-life is `nan` for an empty table, otherwise the mean of the rows, those of years without dates counted
as 0: with `p` the share of the years with dates it lies between `p` times the least and `p` times the greatest half-life. -/
theorem C173_mean {year : τ → ℤ} {lastDay : ℤ → τ} {w : Dict τ (Vec K)} {start stop : τ}
    {table : List (ℤ × (Fin K → Option ℝ))} (h : yearlyWeights year lastDay w start stop = .ok table) {hl : List ℝ}
    (hlen : hl.length = K) {rows : List (ℤ × ℝ)} (hr : effectiveHalflife table hl = .ok rows) :
    (table = [] → meanHalflife table hl = .ok none) ∧
    (table ≠ [] → ∃ m, meanHalflife table hl = .ok (some m) ∧ table.length * m = (rows.map Prod.snd).sum ∧
      ∀ lo hi, (∀ p ∈ w, Simplex p.2) → (∀ x ∈ hl, lo ≤ x ∧ x ≤ hi) →
        ((table.filter fun r => datesOf year w r.1 ≠ []).length : ℝ) / table.length * lo ≤ m ∧
        m ≤ ((table.filter fun r => datesOf year w r.1 ≠ []).length : ℝ) / table.length * hi) := by
  have hmean : meanHalflife table hl = .ok (nanMean (rows.map fun p => some p.2)) := by
    unfold meanHalflife; rw [hr]; rfl
  rw [nanMean_map_some] at hmean
  have hrows := (Except.ok.inj (hr.symm.trans (halflife_rows h hlen)))
  have hlen' : rows.length = table.length := by rw [hrows, List.length_map]
  constructor
  · rintro rfl
    have : rows = [] := List.length_eq_zero_iff.mp (by rw [hlen']; rfl)
    rw [hmean, if_pos this]
  · intro hne
    have hne' : rows ≠ [] := fun e => hne (List.length_eq_zero_iff.mp (by rw [← hlen', e]; rfl))
    have hpos : (0 : ℝ) < table.length := by exact_mod_cast List.length_pos_of_ne_nil hne
    rw [if_neg hne', hlen'] at hmean
    refine ⟨_, hmean, by rw [mul_div_assoc', mul_div_cancel_left₀ _ hpos.ne'], ?_⟩
    intro lo hi hw hb
    have key : ∀ l : List (ℤ × (Fin K → Option ℝ)),
        ((l.filter fun r => datesOf year w r.1 ≠ []).length : ℝ) * lo ≤ (l.map fun p =>
          ((datesOf year w p.1).map fun q => blendHalflife hl q.2).sum / ((datesOf year w p.1).length : ℝ)).sum ∧
        (l.map fun p => ((datesOf year w p.1).map fun q => blendHalflife hl q.2).sum / ((datesOf year w p.1).length : ℝ)).sum ≤
          ((l.filter fun r => datesOf year w r.1 ≠ []).length : ℝ) * hi := by
      intro l
      induction l with
      | nil => simp
      | cons a l ih =>
        rw [List.map_cons, List.sum_cons, List.filter_cons]
        by_cases hd : datesOf year w a.1 = []
        · rw [if_neg (by simpa using hd), hd]
          simpa using ih
        · rw [if_pos (by simpa using hd)]
          have hp : (0 : ℝ) < (datesOf year w a.1).length := by exact_mod_cast List.length_pos_of_ne_nil hd
          obtain ⟨h1, h2⟩ := sum_bounds (datesOf year w a.1) (fun q => blendHalflife hl q.2) (lo := lo) (hi := hi)
            fun a ha => blend_bounds hlen (hw a (List.mem_of_mem_filter ha)) hb
          have h3 : lo ≤ ((datesOf year w a.1).map fun q => blendHalflife hl q.2).sum / ((datesOf year w a.1).length : ℝ) := by
            rw [le_div_iff₀ hp]; linarith
          have h4 : ((datesOf year w a.1).map fun q => blendHalflife hl q.2).sum / ((datesOf year w a.1).length : ℝ) ≤ hi := by
            rw [div_le_iff₀ hp]; linarith
          rw [List.length_cons]
          push_cast
          obtain ⟨i1, i2⟩ := ih
          constructor <;> linarith
    have e : (rows.map Prod.snd) = table.map fun p =>
        ((datesOf year w p.1).map fun q => blendHalflife hl q.2).sum / ((datesOf year w p.1).length : ℝ) := by
      rw [hrows, List.map_map]; rfl
    have e' : (rows.map fun p => p.2) = rows.map Prod.snd := rfl
    rw [e', e, le_div_iff₀ hpos, div_le_iff₀ hpos]
    obtain ⟨k1, k2⟩ := key table
    constructor
    · rw [div_mul_eq_mul_div, div_mul_cancel₀ _ hpos.ne']; exact k1
    · rw [div_mul_eq_mul_div, div_mul_cancel₀ _ hpos.ne']; exact k2

/-! A case: dates are numbers, ten to a year; two experts, dates in the years 0 and 2, year 2 complete. -/
namespace YearlyWeightsEx

private noncomputable def w : Dict ℤ (Vec 2) := [(3, ![1, 0]), (4, ![1/2, 1/2]), (25, ![0, 1])]

private theorem simplex : ∀ p ∈ w, Simplex p.2 := by
  intro p hp
  simp only [w, List.mem_cons, List.not_mem_nil, or_false] at hp
  rcases hp with rfl | rfl | rfl <;> refine ⟨fun k => ?_, ?_⟩ <;> first | (fin_cases k <;> norm_num) | (norm_num [Fin.sum_univ_two])

private theorem table_eq : yearlyWeights (fun t : ℤ => t / 10) (fun y => 10 * y + 9) w 3 29
    = .ok [(0, ![some (3/4), some (1/4)]), (1, ![none, none]), (2, ![some 0, some 1])] := by
  have hb : yearBins (w.map fun p => p.1 / 10) = [0, 1, 2] := by decide
  unfold yearlyWeights
  rw [if_neg (by simp [w])]
  dsimp only
  rw [hb]
  have e : ∀ y k, nanMean (columnOfYear (fun t : ℤ => t / 10) w y k) = if datesOf (fun t : ℤ => t / 10) w y = [] then none
      else some (((datesOf (fun t : ℤ => t / 10) w y).map fun p => p.2 k).sum / (datesOf (fun t : ℤ => t / 10) w y).length) :=
    fun y k => nanMean_map_some (w.filter fun p : ℤ × Vec 2 => p.1 / 10 = y) fun p => p.2 k
  simp only [e]
  have h0 : datesOf (fun t : ℤ => t / 10) w 0 = [(3, ![1, 0]), (4, ![1/2, 1/2])] := by simp [datesOf, w]
  have h1 : datesOf (fun t : ℤ => t / 10) w 1 = [] := by simp [datesOf, w]
  have h2 : datesOf (fun t : ℤ => t / 10) w 2 = [(25, ![0, 1])] := by simp [datesOf, w]
  simp only [List.map_cons, List.map_nil, h0, h1, h2]
  norm_num
  refine ⟨?_, ?_, ?_⟩ <;> funext k <;> fin_cases k <;> first | (norm_num; done) | (norm_num; intro h; cases h)

/-- With half-lives 10 and 30 the effective half-lives are 15, 0 (no dates in that year) and 30, their mean is 15. -/
example : effectiveHalflife [(0, ![some (3/4), some (1/4)]), (1, ![none, none]), (2, ![some (0 : ℝ), some 1])] [10, 30]
      = .ok [((0 : ℤ), (15 : ℝ)), (1, 0), (2, 30)] ∧
    meanHalflife [((0 : ℤ), ![some (3/4 : ℝ), some (1/4)]), (1, ![none, none]), (2, ![some 0, some 1])] [10, 30] = .ok (some 15) ∧
    ∃ table rows, yearlyWeights (fun t : ℤ => t / 10) (fun y => 10 * y + 9) w 3 29 = .ok table ∧ table ≠ [] ∧
      effectiveHalflife table [10, 30] = .ok rows ∧ ∀ p ∈ w, Simplex p.2 := by
  have h : effectiveHalflife [(0, ![some (3/4), some (1/4)]), (1, ![none, none]), (2, ![some (0 : ℝ), some 1])] [10, 30]
      = .ok [((0 : ℤ), (15 : ℝ)), (1, 0), (2, 30)] := by
    unfold effectiveHalflife
    rw [if_neg (by simp)]
    have : List.finRange 2 = [0, 1] := by decide
    rw [this]
    simp only [List.map_cons, List.map_nil, List.filterMap_cons, List.filterMap_nil]
    norm_num [List.getD]
  refine ⟨h, ?_, _, _, table_eq, by simp, h, simplex⟩
  unfold meanHalflife
  rw [h, ok_bind]
  unfold nanMean
  norm_num
  rfl

end YearlyWeightsEx

end CovPred
