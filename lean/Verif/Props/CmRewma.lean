import Verif.Model.CmRewma
import Verif.Spec.CmRewma
import Verif.Lemmas.SigmaRun
import Verif.Props.RealizedEwma
import Verif.Props.ReadmeRun

/-
Properties C168 and C169 of CM-REWMA (`/repo/experiments/extensions/realized_covariance.ipynb:55, 91-99`): intraday returns are
compounded to daily ones, the experts are half-life weighted averages of the daily scatter matrices of the intraday returns.

`IntradayTable` and `RewmaSetup` (Verif/Spec/CmRewma.lean) collect the conditions on the arguments; `rewmaWindow` is the window,
cut to the days there are.
-/
set_option linter.unusedSectionVars false
namespace CovPred
open Matrix

section
variable {τ : Type} [LinearOrder τ] {n K : ℕ} {solver : Solver n K} {halflives : Fin K → ℝ} {window T : ℕ} {D : ℕ → τ}
  {rows : List (τ × Vec n)}

/-! ### Auxiliary facts -/

private theorem uniqueLabels_nodup {A : Type} (rows : List (τ × A)) : (uniqueLabels rows).Nodup := by
  unfold uniqueLabels
  rw [List.nodup_reverse]
  exact List.nodup_dedup _

private theorem groupKeys_sorted {A : Type} (rows : List (τ × A)) : (groupKeys rows).Pairwise (· ≤ ·) := by
  have := List.pairwise_mergeSort (le := fun a b : τ => decide (a ≤ b))
    (by intro a b c; simpa using le_trans) (by intro a b; simpa using le_total a b) (uniqueLabels rows)
  unfold groupKeys
  simpa using this

private theorem groupKeys_nodup {A : Type} (rows : List (τ × A)) : (groupKeys rows).Nodup :=
  (List.mergeSort_perm _ _).nodup_iff.2 (uniqueLabels_nodup rows)

private theorem mem_groupKeys {A : Type} (rows : List (τ × A)) (t : τ) : t ∈ groupKeys rows ↔ t ∈ rows.map Prod.fst := by
  unfold groupKeys
  rw [(List.mergeSort_perm _ _).mem_iff, mem_uniqueLabels]

private theorem sorted_eq {l : List τ} (h1 : l.Pairwise (· ≤ ·)) (h2 : l.Nodup) (hD : Increasing T D)
    (h3 : ∀ t, t ∈ l ↔ ∃ k < T, t = D k) : l = (List.range T).map D := by
  have hnd : ((List.range T).map D).Nodup := by
    rw [List.nodup_map_iff_inj_on List.nodup_range]
    intro a ha b hb hab
    rw [List.mem_range] at ha hb
    rcases lt_trichotomy a b with h | h | h
    · exact absurd hab (hD a b h hb).ne
    · exact h
    · exact absurd hab (hD b a h ha).ne'
  have hp : l.Perm ((List.range T).map D) := by
    rw [List.perm_ext_iff_of_nodup h2 hnd]
    intro t
    rw [h3, List.mem_map]
    simp only [List.mem_range]
    exact ⟨fun ⟨k, h, e⟩ => ⟨k, h, e.symm⟩, fun ⟨k, h, e⟩ => ⟨k, h, e.symm⟩⟩
  refine List.Perm.eq_of_pairwise (le := (· ≤ ·)) (fun a b _ _ h1 h2 => le_antisymm h1 h2) h1 ?_ hp
  rw [List.pairwise_map]
  refine (List.pairwise_lt_range (n := T)).imp_of_mem fun {a b} _ hb hab => ?_
  exact (hD a b hab (List.mem_range.mp hb)).le

private theorem table_unique (h : IntradayTable T D rows) : uniqueLabels rows = (List.range T).map D := by
  refine sorted_eq ?_ (uniqueLabels_nodup rows) h.increasing fun t => by rw [mem_uniqueLabels, h.days]
  have hs : (uniqueLabels rows).Sublist (rows.map Prod.fst) := by
    have := (List.dedup_sublist (rows.map Prod.fst).reverse).reverse
    rwa [List.reverse_reverse] at this
  exact List.Pairwise.sublist hs h.sorted

private theorem table_keys (h : IntradayTable T D rows) : groupKeys rows = (List.range T).map D :=
  sorted_eq (groupKeys_sorted rows) (groupKeys_nodup rows) h.increasing fun t => by rw [mem_groupKeys, h.days]

private theorem cumprod_last (acc : Vec n) (rs : List (Vec n)) (hrs : rs ≠ []) :
    (cumprod acc rs).getLast? = some fun i => acc i * (rs.map fun r => 1 + r i).prod := by
  induction rs generalizing acc with
  | nil => exact absurd rfl hrs
  | cons r rs ih =>
    rw [cumprod]
    by_cases h : rs = []
    · subst h
      simp only [cumprod, List.getLast?_singleton, List.map_cons, List.map_nil, List.prod_cons, List.prod_nil, _root_.mul_one]
      rfl
    · have hne : cumprod (acc * (1 + r)) rs ≠ [] := by
        cases rs with
        | nil => exact absurd rfl h
        | cons a b => simp [cumprod]
      rw [List.getLast?_cons_of_ne_nil hne, ih _ h]
      congr 1
      funext i
      simp only [List.map_cons, List.prod_cons, Pi.mul_apply, Pi.add_apply, Pi.one_apply]
      ring

private theorem daily_row (rows : List (τ × Vec n)) {t : τ} (ht : t ∈ rows.map Prod.fst) :
    ((cumprod 1 (rowsAt rows t)).map fun r => r - 1).getLast? = some (compounded (intraday rows t)) := by
  have hne : rowsAt rows t ≠ [] := by
    rw [List.mem_map] at ht
    obtain ⟨p, hp, rfl⟩ := ht
    unfold rowsAt
    intro h0
    have : p ∈ rows.filter fun q => q.1 = p.1 := List.mem_filter.mpr ⟨hp, by simp⟩
    rw [List.map_eq_nil_iff] at h0
    rw [h0] at this
    cases this
  rw [List.getLast?_map, cumprod_last _ _ hne, Option.map_some]
  congr 1
  funext i
  simp only [Pi.sub_apply, Pi.one_apply, _root_.one_mul]
  rfl

private theorem sum_dev (rs : List (Vec n)) (i j : Fin n) (p q : ℝ) :
    (rs.map fun r => (r i - p) * (r j - q)).sum
      = (rs.map fun r => r i * r j).sum - q * rs.sum i - p * rs.sum j + rs.length * (p * q) := by
  induction rs with
  | nil => simp
  | cons r rs ih =>
    simp only [List.map_cons, List.sum_cons, ih, List.length_cons, Pi.add_apply]
    push_cast
    ring

private theorem scatter_eq (rs : List (Vec n)) : scatter rs = realizedSpec rs := by
  ext i j
  unfold scatter realizedSpec
  rw [Matrix.of_apply, Matrix.of_apply, sum_dev]
  by_cases h : rs = []
  · subst h; simp
  · have : (rs.length : ℝ) ≠ 0 := by exact_mod_cast fun h0 => h (List.length_eq_zero_iff.mp h0)
    field_simp
    ring

private theorem table_ne_one (h : IntradayTable T D rows) (t : τ) : (rowsAt rows t).length ≠ 1 := by
  intro h1
  have hm : t ∈ rows.map Prod.fst := by
    have hne : rowsAt rows t ≠ [] := by intro h0; rw [h0] at h1; cases h1
    obtain ⟨v, hv⟩ := List.exists_mem_of_ne_nil _ hne
    unfold rowsAt at hv
    rw [List.mem_map] at hv
    obtain ⟨p, hp, _⟩ := hv
    rw [List.mem_filter] at hp
    exact List.mem_map.mpr ⟨p, hp.1, by simpa using hp.2⟩
  obtain ⟨k, hk, rfl⟩ := (h.days t).mp hm
  have h2 : 2 ≤ (rowsAt rows (D k)).length := h.two k hk
  omega

private theorem rewmaExpert_spec (h : IntradayTable T D rows) (hT : 0 < T) {hl : ℝ} (hh : 0 < hl) :
    rewmaExpert rows hl = .ok ((List.range' 1 (T - 1)).map fun k => (D k, rewmaCov hl rows D k)) := by
  unfold rewmaExpert
  rw [C125_average (by rw [← table_unique h]; exact uniqueLabels_firstSeen _) hT (fun t => by have := table_ne_one h t; rwa [rowsAt, List.length_map] at this) hh none, ok_bind]
  unfold genDict
  dsimp only
  rw [ok_bind]
  rw [dictOf_nodup, finiteCovs_map, if_pos]
  · congr 1
    apply List.map_congr_left
    intro k _
    congr 1
    ext i j
    simp only [finRow, Arr.get_ofFn, Matrix.of_apply, XR.toReal, rewmaCov, scatter_eq]
    rfl
  · intro k _ ij
    exact ⟨halflifeAverage hl (fun s => realizedSpec ((rows.filter fun p => p.1 = D s).map Prod.snd) ij.1 ij.2) k, by
      simp only [finRow, Arr.get_ofFn]⟩
  · rw [List.map_map, List.nodup_map_iff_inj_on List.nodup_range']
    intro a ha b hb hab
    rw [List.mem_range'_1] at ha hb
    dsimp only [Function.comp] at hab
    rcases lt_trichotomy a b with h1 | h1 | h1
    · exact absurd hab (h.increasing a b h1 (by omega)).ne
    · exact h1
    · exact absurd hab (h.increasing b a h1 (by omega)).ne'

private theorem daily_map (rows : List (τ × Vec n)) :
    dailyReturns rows = (groupKeys rows).map fun t => (t, compounded (intraday rows t)) := by
  unfold dailyReturns
  rw [← List.filterMap_eq_map (f := fun t => (t, compounded (intraday rows t)))]
  apply List.filterMap_congr
  intro t ht
  rw [mem_groupKeys] at ht
  rw [daily_row rows ht]
  rfl

/-! ### C169: daily returns -/

/-- **C169.** The daily returns: for every day, in chronological order, the compounded return of its rows. -/
theorem C169_daily (rows : List (τ × Vec n)) :
    (dailyReturns rows).Pairwise (fun p q => p.1 < q.1) ∧
    ∀ t x, (t, x) ∈ dailyReturns rows ↔ t ∈ rows.map Prod.fst ∧ x = compounded (intraday rows t) := by
  have e := daily_map rows
  rw [e]
  constructor
  · rw [List.pairwise_map]
    exact (groupKeys_sorted rows).imp₂ (fun a b h1 h2 => lt_of_le_of_ne h1 h2) (groupKeys_nodup rows)
  · intro t x
    rw [List.mem_map]
    constructor
    · rintro ⟨t', ht', h⟩
      rw [mem_groupKeys] at ht'
      cases h
      exact ⟨ht', rfl⟩
    · rintro ⟨ht, rfl⟩
      exact ⟨t, (mem_groupKeys rows t).mpr ht, rfl⟩

private theorem daily_rowDict (h : IntradayTable T D rows) :
    dailyReturns rows = rowDict T D fun k => compounded (intraday rows (D k)) := by
  unfold dailyReturns rowDict
  rw [table_keys h, ← List.filterMap_eq_map (f := fun s => (D s, compounded (intraday rows (D s)))), List.filterMap_map]
  apply List.filterMap_congr
  intro k hk
  rw [List.mem_range] at hk
  dsimp only [Function.comp]
  rw [daily_row rows ((h.days _).mpr ⟨k, hk, rfl⟩)]
  rfl

/-- the run as one of `from_sigmas` on the averages of the days from the second on -/
private theorem cmRewma_eq (h : IntradayTable T D rows) (hT : 0 < T) (hh : ∀ k, 0 < halflives k) :
    cmRewma solver halflives window rows = sigmaRun solver window
      (offPanel (fun s k => rewmaCov (halflives k) rows D s) 1 D (fun k => compounded (intraday rows (D k))) T).sigmas
      (rowDict T D fun k => compounded (intraday rows (D k))) := by
  unfold cmRewma
  rw [finM_ok _ (offPanel (fun s k => rewmaCov (halflives k) rows D s) 1 D (fun k => compounded (intraday rows (D k))) T).sigmas,
    ok_bind, daily_rowDict h]
  · rfl
  · intro i
    rw [rewmaExpert_spec h hT (hh i), map_range_shift]
    rfl

/-- **C169.** Compounding loses nothing: the growth of each asset over all days is its growth over all rows, in whatever order
they come. -/
theorem C169_growth (rows : List (τ × Vec n)) (i : Fin n) :
    ((dailyReturns rows).map fun p => 1 + p.2 i).prod = (rows.map fun p => 1 + p.2 i).prod := by
  have key : ∀ (rows : List (τ × Vec n)) (ks : List τ), ks.Nodup → (∀ p ∈ rows, p.1 ∈ ks) →
      (ks.map fun t => ((intraday rows t).map fun r => 1 + r i).prod).prod = (rows.map fun p => 1 + p.2 i).prod := by
    intro rows ks hks
    induction rows with
    | nil => intro _; simp [intraday]
    | cons p rows ih =>
      intro hmem
      have h1 := ih fun q hq => hmem q (List.mem_cons_of_mem _ hq)
      have h2 : (ks.map fun t => ((intraday (p :: rows) t).map fun r => 1 + r i).prod)
          = ks.map fun t => (if p.1 = t then 1 + p.2 i else 1) * ((intraday rows t).map fun r => 1 + r i).prod := by
        apply List.map_congr_left
        intro t _
        unfold intraday
        by_cases h : p.1 = t
        · simp [h]
        · simp [h]
      rw [h2, List.prod_map_mul, h1, List.map_cons, List.prod_cons]
      congr 1
      clear h1 h2 ih
      have hp := hmem p (by simp)
      clear hmem
      induction ks with
      | nil => cases hp
      | cons t ks ih =>
        rw [List.nodup_cons] at hks
        rw [List.map_cons, List.prod_cons]
        rcases List.mem_cons.mp hp with h | h
        · rw [if_pos h]
          have : ks.map (fun t => if p.1 = t then 1 + p.2 i else 1) = ks.map fun _ => 1 := by
            apply List.map_congr_left
            intro u hu
            rw [if_neg]
            rintro rfl
            exact hks.1 (h ▸ hu)
          rw [this]
          simp
        · rw [if_neg, ih hks.2 h, _root_.one_mul]
          rintro rfl
          exact hks.1 h
  have e : dailyReturns rows = (groupKeys rows).map fun t => (t, compounded (intraday rows t)) := daily_map rows
  rw [e, List.map_map, ← key rows (groupKeys rows) (groupKeys_nodup rows) fun p hp => (mem_groupKeys rows _).mpr (List.mem_map.mpr ⟨p, hp, rfl⟩)]
  congr 1
  apply List.map_congr_left
  intro t _
  simp [compounded]

private theorem scatter_perm {rs rs' : List (Vec n)} (h : rs.Perm rs') : scatter rs = scatter rs' := by
  ext i j
  unfold scatter
  rw [Matrix.of_apply, Matrix.of_apply, h.sum_eq, h.length_eq]
  exact (h.map _).sum_eq

private theorem compounded_perm {rs rs' : List (Vec n)} (h : rs.Perm rs') : compounded rs = compounded rs' := by
  funext i
  unfold compounded
  rw [(h.map _).prod_eq]

/-- **C169.** The order of the rows within a day does not matter: the predictions (or the exception) are the same. -/
theorem C169_order {rows' : List (τ × Vec n)} (h : IntradayTable T D rows) (h' : IntradayTable T D rows')
    (hT : 0 < T) (hh : ∀ k, 0 < halflives k) (hp : ∀ k < T, (intraday rows (D k)).Perm (intraday rows' (D k))) :
    cmRewma solver halflives window rows = cmRewma solver halflives window rows' := by
  have hd : dailyReturns rows = dailyReturns rows' := by
    rw [daily_rowDict h, daily_rowDict h']
    unfold rowDict
    apply List.map_congr_left
    intro k hk
    dsimp only
    rw [compounded_perm (hp k (List.mem_range.mp hk))]
  have he : ∀ i, rewmaExpert rows (halflives i) = rewmaExpert rows' (halflives i) := fun i => by
    rw [rewmaExpert_spec h hT (hh i), rewmaExpert_spec h' hT (hh i)]
    congr 1
    apply List.map_congr_left
    intro k hk
    rw [List.mem_range'_1] at hk
    congr 1
    ext p q
    unfold rewmaCov halflifeAverage
    rw [Matrix.of_apply, Matrix.of_apply]
    congr 1
    apply Finset.sum_congr rfl
    intro s hs
    rw [Finset.mem_range] at hs
    dsimp only
    rw [scatter_perm (hp s (by omega))]
  unfold cmRewma
  rw [hd]
  simp only [he]


/-! ### C168: what the cell computes -/

/-- the weights of the average -/
private noncomputable def avgWeight (h : ℝ) (k s : ℕ) : ℝ :=
  (2 : ℝ) ^ (-((k - s : ℕ) : ℝ) / h) / ∑ u ∈ Finset.range (k + 1), (2 : ℝ) ^ (-((k - u : ℕ) : ℝ) / h)

private theorem avgWeight_pos (h : ℝ) (k s : ℕ) : 0 < avgWeight h k s :=
  div_pos (Real.rpow_pos_of_pos (by norm_num) _)
    (Finset.sum_pos (fun u _ => Real.rpow_pos_of_pos (by norm_num) _) ⟨0, by simp⟩)

private theorem rewma_sum (hl : ℝ) (rows : List (τ × Vec n)) (D : ℕ → τ) (k : ℕ) :
    rewmaCov hl rows D k = ∑ s ∈ Finset.range (k + 1), avgWeight hl k s • scatter (intraday rows (D s)) := by
  ext i j
  rw [Matrix.sum_apply]
  unfold rewmaCov avgWeight halflifeAverage
  rw [Matrix.of_apply, Finset.sum_div]
  refine Finset.sum_congr rfl fun s _ => ?_
  rw [Matrix.smul_apply, smul_eq_mul]
  ring

private theorem rewma_symm (hl : ℝ) (rows : List (τ × Vec n)) (D : ℕ → τ) (k : ℕ) (i j : Fin n) :
    rewmaCov hl rows D k i j = rewmaCov hl rows D k j i := by
  unfold rewmaCov scatter
  simp only [Matrix.of_apply]
  congr 2
  funext s
  congr 2
  funext r
  ring

private theorem scatter_quad (rs : List (Vec n)) (w : Vec n) :
    w ⬝ᵥ (scatter rs *ᵥ w) = (rs.map fun r => (w ⬝ᵥ (r - (1 / (rs.length : ℝ)) • rs.sum)) ^ 2).sum := by
  rw [scatter_eq]
  by_cases h : rs = []
  · subst h
    have : realizedSpec ([] : List (Vec n)) = 0 := by ext i j; simp [realizedSpec]
    rw [this]
    simp
  · exact realizedSpec_quad rs h w

private theorem scatter_quad_nonneg (rs : List (Vec n)) (w : Vec n) : 0 ≤ w ⬝ᵥ (scatter rs *ᵥ w) := by
  rw [scatter_quad]
  apply List.sum_nonneg
  intro y hy
  rw [List.mem_map] at hy
  obtain ⟨r, _, rfl⟩ := hy
  exact sq_nonneg _

private theorem scatter_quad_zero (rs : List (Vec n)) (w : Vec n) :
    w ⬝ᵥ (scatter rs *ᵥ w) = 0 ↔ ∀ r ∈ rs, ∀ r' ∈ rs, w ⬝ᵥ r = w ⬝ᵥ r' := by
  have hsum : ∀ l : List (Vec n), w ⬝ᵥ l.sum = (l.map fun r => w ⬝ᵥ r).sum := fun l => by
    induction l with
    | nil => simp
    | cons a l ih => simp [dotProduct_add, ih]
  rw [scatter_quad]
  constructor
  · intro h0
    have hz : ∀ r ∈ rs, w ⬝ᵥ r = w ⬝ᵥ ((1 / (rs.length : ℝ)) • rs.sum) := fun r hr => by
      have := List.single_le_sum (l := rs.map fun r => (w ⬝ᵥ (r - (1 / (rs.length : ℝ)) • rs.sum)) ^ 2)
        (by intro y hy; rw [List.mem_map] at hy; obtain ⟨r, _, rfl⟩ := hy; exact sq_nonneg _) _
        (List.mem_map.mpr ⟨r, hr, rfl⟩)
      rw [h0] at this
      have h2 := pow_eq_zero_iff (two_ne_zero) |>.mp (le_antisymm this (sq_nonneg _))
      rw [dotProduct_sub] at h2
      linarith
    intro r hr r' hr'
    rw [hz r hr, hz r' hr']
  · intro h
    apply List.sum_eq_zero
    intro y hy
    rw [List.mem_map] at hy
    obtain ⟨r, hr, rfl⟩ := hy
    have hN : (rs.length : ℝ) ≠ 0 := by exact_mod_cast (List.length_pos_of_mem hr).ne'
    have e : rs.map (fun r' => w ⬝ᵥ r') = rs.map fun _ => w ⬝ᵥ r := List.map_congr_left fun r' hr' => h r' hr' r hr
    rw [dotProduct_sub, dotProduct_smul, hsum, e]
    simp
    field_simp
    ring

/-- **C168.** An average is positive definite exactly if no portfolio but the empty one has, on each of the days up to it, the
same return in all rows of the day. -/
theorem C168_posDef (hl : ℝ) (rows : List (τ × Vec n)) (D : ℕ → τ) (k : ℕ) :
    (rewmaCov hl rows D k).PosDef ↔
      ∀ w : Vec n, (∀ s ≤ k, ∀ r ∈ intraday rows (D s), ∀ r' ∈ intraday rows (D s), w ⬝ᵥ r = w ⬝ᵥ r') → w = 0 := by
  have hq : ∀ w : Vec n, w ⬝ᵥ (rewmaCov hl rows D k *ᵥ w)
      = ∑ s ∈ Finset.range (k + 1), avgWeight hl k s * (w ⬝ᵥ (scatter (intraday rows (D s)) *ᵥ w)) := fun w => by
    rw [rewma_sum, Matrix.sum_mulVec, dotProduct_sum]
    refine Finset.sum_congr rfl fun s _ => ?_
    rw [Matrix.smul_mulVec, dotProduct_smul, smul_eq_mul]
  have hnn : ∀ w : Vec n, ∀ s ∈ Finset.range (k + 1), 0 ≤ avgWeight hl k s * (w ⬝ᵥ (scatter (intraday rows (D s)) *ᵥ w)) :=
    fun w s _ => mul_nonneg (avgWeight_pos hl k s).le (scatter_quad_nonneg _ _)
  have hz : ∀ w : Vec n, w ⬝ᵥ (rewmaCov hl rows D k *ᵥ w) = 0 ↔
      ∀ s ≤ k, ∀ r ∈ intraday rows (D s), ∀ r' ∈ intraday rows (D s), w ⬝ᵥ r = w ⬝ᵥ r' := fun w => by
    rw [hq, Finset.sum_eq_zero_iff_of_nonneg (hnn w)]
    constructor
    · intro h s hs
      have := h s (Finset.mem_range.mpr (by omega))
      rcases mul_eq_zero.mp this with h1 | h1
      · exact absurd h1 (avgWeight_pos hl k s).ne'
      · exact (scatter_quad_zero _ _).mp h1
    · intro h s hs
      rw [Finset.mem_range] at hs
      rw [(scatter_quad_zero _ _).mpr (h s (by omega)), MulZeroClass.mul_zero]
  have hherm : (rewmaCov hl rows D k).IsHermitian := by ext i j; exact rewma_symm _ _ _ _ _ _
  constructor
  · intro hp w hw
    by_contra hne
    have := hp.dotProduct_mulVec_pos hne
    simp only [star_trivial] at this
    rw [(hz w).mpr hw] at this
    exact lt_irrefl _ this
  · intro hall
    refine Matrix.PosDef.of_dotProduct_mulVec_pos hherm fun w hw => ?_
    simp only [star_trivial]
    refine lt_of_le_of_ne ?_ fun h0 => hw (hall w ((hz w).mp h0.symm))
    rw [hq]
    exact Finset.sum_nonneg (hnn w)

private theorem rewma_off (h : RewmaSetup solver halflives window T) (ht : IntradayTable T D rows) :
    OffSetup solver (fun s k => rewmaCov (halflives k) rows D s) 1 window T D where
  experts := h.experts
  labels := ht.increasing
  window_pos := h.window_pos
  feasible := h.feasible
  rows := by have := h.enough; omega
  symm := fun s _ _ k i j => rewma_symm _ _ _ _ _ _

private theorem rewma_window (window T : ℕ) : offWindow 1 window T = rewmaWindow window T := by
  unfold offWindow rewmaWindow; omega

/-- **C168.** The dates: every day from the second plus the window on, once, in order. -/
theorem C168_days (h : RewmaSetup solver halflives window T) (ht : IntradayTable T D rows) {d : Dict τ (Mat n)}
    (hd : cmRewma solver halflives window rows = .ok d) :
    d.map Prod.fst = (List.range' (1 + rewmaWindow window T) (T - (1 + rewmaWindow window T))).map D := by
  rw [cmRewma_eq ht (by have := h.enough; omega) h.halflives] at hd
  obtain ⟨_, rfl⟩ := (off_ok_iff (rewma_off h ht) d).mp hd
  rw [List.map_map, rewma_window]; rfl

/-- **C168.** The prediction for a day: the averages up to it are positive definite and the prediction is their blend with weights
on the simplex, so it is positive definite; with an exact solver the weights maximise the likelihood of the daily returns of
the last `window` days under the blends of the averages of the day before each. -/
theorem C168_prediction (h : RewmaSetup solver halflives window T) (ht : IntradayTable T D rows) {d : Dict τ (Mat n)}
    (hd : cmRewma solver halflives window rows = .ok d) {s : ℕ} (hs : 1 + rewmaWindow window T ≤ s) (hsT : s < T) :
    ∃ S, d.lookup (D s) = some S ∧ S.PosDef ∧ (∀ k, (rewmaCov (halflives k) rows D s).PosDef) ∧
      ∃ w, Simplex w ∧ S = blendCov (fun k => rewmaCov (halflives k) rows D s) w ∧
        (solver.Exact → ∀ w', Simplex w' →
          rewmaLogLik halflives rows D (rewmaWindow window T) s w' ≤ rewmaLogLik halflives rows D (rewmaWindow window T) s w) := by
  rw [cmRewma_eq ht (by have := h.enough; omega) h.halflives] at hd
  have := off_prediction (rewma_off h ht) hd (s := s) (by rw [rewma_window]; exact hs) hsT
  rw [rewma_window] at this
  exact this

/-- **C168.** With a solver that finds the optimum, the cell runs through exactly if no portfolio but the empty one has, on each of
the first two days, the same return in all rows of the day, and no window is degenerate. -/
theorem C168_success (h : RewmaSetup solver halflives window T) (ht : IntradayTable T D rows) (hs : solver.Exact)
    (hs' : solver.Complete) :
    (∃ d, cmRewma solver halflives window rows = .ok d) ↔
      (∀ w : Vec n, (∀ s ≤ 1, ∀ r ∈ intraday rows (D s), ∀ r' ∈ intraday rows (D s), w ⬝ᵥ r = w ⬝ᵥ r') → w = 0) ∧
      ∀ t, rewmaWindow window T ≤ t → t < T - 1 →
        ((offPanel (fun s k => rewmaCov (halflives k) rows D s) 1 D (fun k => compounded (intraday rows (D k))) T).gram
          (rewmaWindow window T) t).PosDef := by
  have hT := h.enough
  rw [cmRewma_eq ht (by omega) h.halflives, off_success (rewma_off h ht) hs hs', rewma_window]
  refine and_congr_left fun _ => ⟨fun h2 => ?_, fun h2 s h3 h4 k => ?_⟩
  · exact (C168_posDef (halflives ⟨0, h.experts⟩) rows D 1).mp (h2 1 le_rfl (by omega) ⟨0, h.experts⟩)
  · exact (C168_posDef _ rows D s).mpr fun w hw => h2 w fun u hu => hw u (by omega)

/-- **C168.** No look-ahead: if the cell runs on a longer table whose rows on the days of a shorter one are the same, and the
shorter one has room for the whole window, it also runs on the shorter one, and its predictions are the first predictions of
the longer run. -/
theorem C168_no_lookahead {T' : ℕ} {rows' : List (τ × Vec n)} (h : RewmaSetup solver halflives window T)
    (ht : IntradayTable T D rows) (ht' : IntradayTable T' D rows') (hTT : T ≤ T')
    (heq : ∀ k < T, intraday rows (D k) = intraday rows' (D k)) (hroom : 1 + window < T) {d' : Dict τ (Mat n)}
    (hd' : cmRewma solver halflives window rows' = .ok d') :
    cmRewma solver halflives window rows = .ok (d'.take (T - (1 + window))) := by
  have hT := h.enough
  have h' : RewmaSetup solver halflives window T' := { h with enough := by omega }
  rw [cmRewma_eq ht' (by omega) h.halflives] at hd'
  rw [cmRewma_eq ht (by omega) h.halflives]
  refine off_no_lookahead (rewma_off h ht) (rewma_off h' ht') hTT (fun u hu => by rw [heq u hu]) (fun u _ hu => ?_) hroom hd'
  funext k
  rw [rewma_sum, rewma_sum]
  refine Finset.sum_congr rfl fun s hs => ?_
  rw [Finset.mem_range] at hs
  rw [heq s (by omega)]

/-- **C168.** The exceptions on such a table: `LinAlgError` if some average is not positive definite; else that of the
comprehension. -/
theorem C168_exceptions (h : RewmaSetup solver halflives window T) (ht : IntradayTable T D rows) {e : Err}
    (he : cmRewma solver halflives window rows = .error e) :
    (e = .linAlgError ∧ ∃ s, 1 ≤ s ∧ s < T ∧ ∃ k, ¬ (rewmaCov (halflives k) rows D s).PosDef) ∨
    ((∀ s, 1 ≤ s → s < T → ∀ k, (rewmaCov (halflives k) rows D s).PosDef) ∧
      (offPanel (fun s k => rewmaCov (halflives k) rows D s) 1 D (fun k => compounded (intraday rows (D k))) T).FailsList solver
        (rewmaWindow window T) e) := by
  rw [cmRewma_eq ht (by have := h.enough; omega) h.halflives] at he
  have := off_exceptions (rewma_off h ht) he
  rw [rewma_window] at this
  exact this

/-- **C168.** A day with a single row is a `TypeError`, an empty table an `IndexError`. -/
theorem C168_single_row (hK : 0 < K) :
    ((∃ t, (intraday rows t).length = 1) → cmRewma solver halflives window rows = .error .typeError) ∧
    cmRewma solver halflives window ([] : List (τ × Vec n)) = .error .indexError := by
  obtain ⟨K, rfl⟩ : ∃ K', K = K' + 1 := ⟨K - 1, by omega⟩
  constructor
  · intro h1
    have : ∀ i, rewmaExpert rows (halflives i) = .error .typeError := fun i => by
      unfold rewmaExpert
      rw [(C125_errors rows _ none none).1 (by obtain ⟨t, ht⟩ := h1; exact ⟨t, by rwa [intraday, List.length_map] at ht⟩)]
      rfl
    unfold cmRewma finM
    dsimp only
    rw [this]
    rfl
  · unfold cmRewma finM rewmaExpert
    dsimp only
    rw [(C125_errors ([] : List (τ × Vec n)) _ none none).2.1]
    rfl

/-- **C168.** Too few rows: with fewer rows on the first two days together than assets plus two, the cell raises `LinAlgError`. -/
theorem C168_few_rows (h : RewmaSetup solver halflives window T) (ht : IntradayTable T D rows)
    (hfew : (intraday rows (D 0)).length + (intraday rows (D 1)).length < n + 2) :
    cmRewma solver halflives window rows = .error .linAlgError := by
  have hT := h.enough
  have hbad : ¬ (rewmaCov (halflives ⟨0, h.experts⟩) rows D 1).PosDef := by
    rw [C168_posDef]
    intro hall
    have h0 := ht.two 0 (by omega)
    have h1 := ht.two 1 (by omega)
    set A := intraday rows (D 0) with hA
    set B := intraday rows (D 1) with hB
    let f : Vec n →ₗ[ℝ] (Fin (A.length - 1) ⊕ Fin (B.length - 1) → ℝ) :=
      { toFun := fun w u => match u with
          | .inl u => w ⬝ᵥ (A[u.1 + 1]'(by omega) - A[0])
          | .inr u => w ⬝ᵥ (B[u.1 + 1]'(by omega) - B[0])
        map_add' := fun a b => by funext u; cases u <;> simp [add_dotProduct] <;> ring
        map_smul' := fun c a => by funext u; cases u <;> simp [smul_dotProduct] <;> ring }
    obtain ⟨w, hw, hne⟩ := Submodule.ne_bot_iff _ |>.mp (LinearMap.ker_ne_bot_of_finrank_lt (f := f) (by simp; omega))
    apply hne
    apply hall
    have hf := LinearMap.mem_ker.mp hw
    have ha : ∀ r ∈ A, w ⬝ᵥ r = w ⬝ᵥ A[0] := by
      intro r hr
      obtain ⟨u, hu, rfl⟩ := List.mem_iff_getElem.mp hr
      rcases u with _ | u
      · rfl
      · have h2 : w ⬝ᵥ (A[u + 1] - A[0]) = 0 := congrFun hf (.inl ⟨u, by omega⟩)
        rw [dotProduct_sub] at h2
        linarith
    have hb : ∀ r ∈ B, w ⬝ᵥ r = w ⬝ᵥ B[0] := by
      intro r hr
      obtain ⟨u, hu, rfl⟩ := List.mem_iff_getElem.mp hr
      rcases u with _ | u
      · rfl
      · have h2 : w ⬝ᵥ (B[u + 1] - B[0]) = 0 := congrFun hf (.inr ⟨u, by omega⟩)
        rw [dotProduct_sub] at h2
        linarith
    intro s hs r hr r' hr'
    interval_cases s
    · rw [ha r hr, ha r' hr']
    · rw [hb r hr, hb r' hr']
  rcases hc : cmRewma solver halflives window rows with e | d
  · rcases C168_exceptions h ht hc with ⟨h1, _⟩ | ⟨h1, _⟩
    · rw [h1]
    · exact absurd (h1 1 le_rfl (by omega) _) hbad
  · exfalso
    rw [cmRewma_eq ht (by omega) h.halflives] at hc
    obtain ⟨h2, _⟩ := (off_ok_iff (rewma_off h ht) d).mp hc
    exact hbad (h2.ok.posDef 0 (by show 0 < T - 1; omega) ⟨0, h.experts⟩)

end
/-! ### A concrete run -/

namespace RewmaEx

/-- one asset that gains 10 % and then loses 20 % on each of `T` days -/
noncomputable def rows (T : ℕ) : List (ℕ × Vec 1) := (List.range T).flatMap fun k => [(k, ![1 / 10]), (k, ![-1 / 5])]

noncomputable def solver : Solver 1 1 := exactSolver 1 1

theorem intraday_rows (T k : ℕ) : intraday (rows T) k = if k < T then [![1 / 10], ![-1 / 5]] else [] := by
  induction T with
  | zero => simp [rows, intraday]
  | succ T ih =>
    have e : rows (T + 1) = rows T ++ [(T, ![1 / 10]), (T, ![-1 / 5])] := by
      unfold rows
      rw [List.range_succ, List.flatMap_append]
      simp
    unfold intraday at ih ⊢
    rw [e, List.filter_append, List.map_append, ih]
    by_cases h : k = T
    · subst h; simp
    · by_cases h2 : k < T
      · simp [h2, show k < T + 1 by omega, show T ≠ k by omega]
      · simp [h2, show ¬ k < T + 1 by omega, show T ≠ k by omega]

theorem mem_rows (T t : ℕ) : t ∈ (rows T).map Prod.fst ↔ t < T := by
  unfold rows
  rw [List.map_flatMap, List.mem_flatMap]
  simp

theorem table (T : ℕ) : IntradayTable T (id : ℕ → ℕ) (rows T) where
  sorted := by
    induction T with
    | zero => simp [rows]
    | succ T ih =>
      have e : rows (T + 1) = rows T ++ [(T, ![1 / 10]), (T, ![-1 / 5])] := by
        unfold rows
        rw [List.range_succ, List.flatMap_append]
        simp
      rw [e, List.map_append, List.pairwise_append]
      refine ⟨ih, by simp, ?_⟩
      intro a ha b hb
      have : a < T := (mem_rows T a).mp ha
      simp at hb
      omega
  increasing := fun s t h _ => h
  days := fun t => by
    rw [mem_rows]
    simp
  two := by
    intro k hk
    rw [intraday_rows, if_pos (show id k < T from hk)]
    simp

theorem setup {window T : ℕ} (hw : 0 < window) (hT : 3 ≤ T) : RewmaSetup solver ![(10 : ℝ)] window T where
  experts := by norm_num
  halflives := by intro k; fin_cases k; norm_num
  window_pos := hw
  feasible := exactSolver_exact.feasible
  enough := hT

theorem spans {T : ℕ} (hT : 1 ≤ T) {k : ℕ} (w : Vec 1) (hw : ∀ s ≤ k, ∀ r ∈ intraday (rows T) (id s), ∀ r' ∈ intraday (rows T) (id s),
    w ⬝ᵥ r = w ⬝ᵥ r') : w = 0 := by
  have h := hw 0 (by omega)
  rw [intraday_rows, if_pos (by simp; omega)] at h
  have := h ![1 / 10] (by simp) ![-1 / 5] (by simp)
  simp [dotProduct] at this
  funext i
  fin_cases i
  show w 0 = 0
  rcases this with h | h
  · norm_num at h
  · exact h

theorem gram_ok {window T : ℕ} (hw : 0 < window) {t : ℕ} (ht : window ≤ t) (htT : t < T - 1) :
    ((offPanel (fun s k => rewmaCov ((![(10 : ℝ)] : Fin 1 → ℝ) k) (rows T) (id : ℕ → ℕ) s) 1 id
      (fun k => compounded (intraday (rows T) (id k))) T).gram window t).PosDef := by
  set P := offPanel (fun s k => rewmaCov ((![(10 : ℝ)] : Fin 1 → ℝ) k) (rows T) (id : ℕ → ℕ) s) 1 id
      (fun k => compounded (intraday (rows T) (id k))) T with hP
  apply gram_posDef_of
  intro w hw'
  have h := hw' t (by omega) le_rfl
  have hpd : (rewmaCov (10 : ℝ) (rows T) (id : ℕ → ℕ) (1 + (t - 1))).PosDef :=
    (C168_posDef _ _ _ _).mpr fun w hw => spans (by omega) w hw
  have hch := precFactor_isChol hpd
  have hret : P.ret t = ![-(3 : ℝ) / 25] := by
    show compounded (intraday (rows T) (1 + t)) = _
    rw [intraday_rows, if_pos (by omega)]
    funext i
    fin_cases i
    simp [compounded]
    norm_num
  have e : P.scores t *ᵥ w
      = w 0 • ((precFactor (rewmaCov (10 : ℝ) (rows T) (id : ℕ → ℕ) (1 + (t - 1))))ᵀ *ᵥ ![-(3 : ℝ) / 25]) := by
    funext i
    rw [← hret]
    simp [Panel.scores, P, offPanel, Matrix.mulVec, dotProduct, _root_.mul_comm]
  rw [e] at h
  rcases smul_eq_zero.mp h with h | h
  · funext i; fin_cases i; exact h
  · exfalso
    set L := precFactor (rewmaCov (10 : ℝ) (rows T) (id : ℕ → ℕ) (1 + (t - 1))) with hL
    have hdet : Lᵀ.det ≠ 0 := by
      rw [Matrix.det_transpose]
      exact hch.det_pos.ne'
    have h0 : (![-(3 : ℝ) / 25] : Vec 1) = 0 :=
      (Matrix.mulVec_injective_iff_isUnit.mpr ((Matrix.isUnit_iff_isUnit_det _).mpr (isUnit_iff_ne_zero.mpr hdet)))
        (by rw [h, Matrix.mulVec_zero])
    have := congrFun h0 0
    norm_num at this

/-- The cell with half-life 10 and window 21 runs through on every such table of at least 3 days. -/
theorem run {T : ℕ} (hT : 3 ≤ T) : ∃ d, cmRewma solver ![(10 : ℝ)] 21 (rows T) = .ok d := by
  refine (C168_success (setup (by norm_num) hT) (table T) exactSolver_exact exactSolver_complete).mpr
    ⟨fun w hw => spans (by omega) w hw, fun t h1 h2 => gram_ok (by unfold rewmaWindow; omega) h1 h2⟩

/-- The daily returns are -12 %, and the growth over ten days is that of the twenty rows (C169). -/
example : (∀ t < 10, (t, (![-(3 : ℝ) / 25] : Vec 1)) ∈ dailyReturns (rows 10)) ∧
    ((dailyReturns (rows 10)).map fun p => 1 + p.2 0).prod = ((rows 10).map fun p => 1 + p.2 0).prod := by
  refine ⟨fun t ht => ((C169_daily (rows 10)).2 t _).mpr ⟨((table 10).days t).mpr ⟨t, ht, rfl⟩, ?_⟩, C169_growth _ _⟩
  rw [intraday_rows, if_pos ht]
  funext i
  fin_cases i
  simp [compounded]
  norm_num

/-- No look-ahead on the example: the run on 100 days starts with the predictions of the run on 50 days (C168). -/
example {d' : Dict ℕ (Mat 1)} (hd' : cmRewma solver ![(10 : ℝ)] 21 (rows 100) = .ok d') :
    cmRewma solver ![(10 : ℝ)] 21 (rows 50) = .ok (d'.take (50 - (1 + 21))) :=
  C168_no_lookahead (setup (by norm_num) (by norm_num)) (table 50) (table 100) (by norm_num)
    (fun k hk => by rw [intraday_rows, intraday_rows, if_pos (by simpa using hk), if_pos (by simp; omega)]) (by norm_num) hd'

/-- Two rows on each of two days are too few for three assets (C168). -/
example (solver : Solver 3 1) (hs : solver.Feasible) (x : Fin 6 → Vec 3) :
    cmRewma solver ![(10 : ℝ)] 21 [(0, x 0), (0, x 1), (1, x 2), (1, x 3), (2, x 4), ((2 : ℕ), x 5)] = .error .linAlgError := by
  apply C168_few_rows (T := 3) (D := id) ⟨by norm_num, by intro k; fin_cases k; norm_num, by norm_num, hs, le_rfl⟩
  · refine ⟨by simp, fun s t h _ => h, fun t => ?_, fun k hk => ?_⟩
    · simp
      omega
    · interval_cases k <;> simp [intraday]
  · simp [intraday]

end RewmaEx
end CovPred
