import Verif.Model.YearlySR
import Verif.Lemmas.XR

/-
Property C126: `yearly_SR`.
-/
set_option linter.unusedSectionVars false
namespace CovPred

variable {τ : Type}

/-- the number of rows of a year -/
def rowsInYear (year : τ → ℤ) (index : List τ) (y : ℤ) : ℕ := (index.filter fun t => year t = y).length

/-- the returns of a year, in order -/
def returnsIn (year : τ → ℤ) (index : List τ) (rets : List ℝ) (y : ℤ) : List ℝ :=
  ((List.zip index rets).filter fun p => year p.1 = y).map Prod.snd

/-- the mean -/
noncomputable def meanOf (l : List ℝ) : ℝ := l.sum / l.length

/-- the unbiased standard deviation -/
noncomputable def stdOf (l : List ℝ) : ℝ := Real.sqrt ((l.map fun x => (x - meanOf l) ^ 2).sum / (l.length - 1))

private theorem len_values (year : τ → ℤ) (index : List τ) (rets : List ℝ) (h : rets.length = index.length) (y : ℤ) :
    (valuesOfYear year (List.zip index rets) y).length = rowsInYear year index y := by
  unfold valuesOfYear rowsInYear
  induction index generalizing rets with
  | nil => simp
  | cons t index ih =>
    cases rets with
    | nil => simp at h
    | cons r rets =>
      have hi := ih rets (by simpa using h)
      simp only [List.length_map] at hi
      rw [List.zip_cons_cons]
      simp only [List.filter_cons, List.length_map]
      split <;> simp [hi]

/-- the filter keeps or drops whole years -/
private theorem kept_values (year : τ → ℤ) (l : List (τ × ℝ)) (y : ℤ) :
    valuesOfYear year (l.filter fun p => 100 < (valuesOfYear year l (year p.1)).length) y
      = if 100 < (valuesOfYear year l y).length then valuesOfYear year l y else [] := by
  have h : valuesOfYear year (l.filter fun p => 100 < (valuesOfYear year l (year p.1)).length) y
      = ((l.filter fun p => decide (year p.1 = y)).filter fun _ => decide (100 < (valuesOfYear year l y).length)).map Prod.snd := by
    conv_lhs => unfold valuesOfYear
    rw [List.filter_filter, List.filter_filter]
    congr 1
    apply List.filter_congr
    intro p _
    by_cases hp : year p.1 = y
    · simp [hp, valuesOfYear]
    · simp [hp]
  rw [h]
  split
  · rename_i h1
    simp only [h1, decide_true, List.filter_true]
    rfl
  · rename_i h1
    simp [h1]

theorem mem_yearBins {years : List ℤ} {y : ℤ} : y ∈ yearBins years ↔ (∃ a ∈ years, a ≤ y) ∧ ∃ b ∈ years, y ≤ b := by
  unfold yearBins
  cases hy : years with
  | nil => simp
  | cons z zs =>
    rw [← hy]
    have hne : years ≠ [] := by rw [hy]; simp
    obtain ⟨a, ha⟩ : ∃ a, years.min? = some a := Option.isSome_iff_exists.1 (by simp [List.isSome_min?_iff, hne])
    obtain ⟨b, hb⟩ : ∃ b, years.max? = some b := Option.isSome_iff_exists.1 (by simp [List.isSome_max?_iff, hne])
    rw [ha, hb]
    dsimp only
    obtain ⟨ha1, ha2⟩ := List.min?_eq_some_iff.1 ha
    obtain ⟨hb1, hb2⟩ := List.max?_eq_some_iff.1 hb
    rw [List.mem_map]
    constructor
    · rintro ⟨k, hk, rfl⟩
      rw [List.mem_range] at hk
      exact ⟨⟨a, ha1, by omega⟩, b, hb1, by omega⟩
    · rintro ⟨⟨a', h1, h2⟩, b', h3, h4⟩
      have := ha2 a' h1
      have := hb2 b' h3
      exact ⟨(y - a).toNat, by rw [List.mem_range]; omega, by omega⟩

theorem yearBins_sorted (years : List ℤ) : (yearBins years).Pairwise (· < ·) := by
  unfold yearBins
  split
  · rw [List.pairwise_map]
    exact List.pairwise_lt_range.imp fun h => by omega
  · exact List.Pairwise.nil

/-- **C126.** The years of the result are consecutive and ascending: from the first to the last year with more than 100
rows. -/
theorem C126_years (year : τ → ℤ) (index : List τ) (rets : List ℝ) (h : rets.length = index.length) :
    ∃ res, yearlySR year index rets = .ok res ∧ (res.map Prod.fst).Pairwise (· < ·) ∧
      ∀ y, y ∈ res.map Prod.fst ↔ (∃ a, 100 < rowsInYear year index a ∧ a ≤ y) ∧ ∃ b, 100 < rowsInYear year index b ∧ y ≤ b := by
  refine ⟨_, by unfold yearlySR; rw [if_neg (by simp [h])], ?_⟩
  dsimp only
  rw [List.map_map]
  have hid : (Prod.fst ∘ fun y => (y, pdMean (valuesOfYear year ((List.zip index rets).filter fun p =>
      100 < (valuesOfYear year (List.zip index rets) (year p.1)).length) y) * .fin 252 /
      (pdStd (valuesOfYear year ((List.zip index rets).filter fun p =>
      100 < (valuesOfYear year (List.zip index rets) (year p.1)).length) y) * .fin (Real.sqrt 252)))) = (id : ℤ → ℤ) := rfl
  rw [hid, List.map_id]
  refine ⟨yearBins_sorted _, fun y => ?_⟩
  rw [mem_yearBins]
  have hmem : ∀ a, a ∈ (((List.zip index rets).filter fun p =>
      100 < (valuesOfYear year (List.zip index rets) (year p.1)).length).map fun p => year p.1)
      ↔ 100 < rowsInYear year index a := by
    intro a
    rw [← len_values year index rets h a, List.mem_map]
    constructor
    · rintro ⟨p, hp, rfl⟩
      rw [List.mem_filter] at hp
      simpa using hp.2
    · intro hlen
      have hne : valuesOfYear year (List.zip index rets) a ≠ [] := by
        intro h0; rw [h0] at hlen; simp at hlen
      obtain ⟨v, hv⟩ := List.exists_mem_of_ne_nil _ hne
      unfold valuesOfYear at hv
      rw [List.mem_map] at hv
      obtain ⟨p, hp, _⟩ := hv
      rw [List.mem_filter] at hp
      have hpa : year p.1 = a := by simpa using hp.2
      exact ⟨p, List.mem_filter.2 ⟨hp.1, by rw [hpa]; simpa using hlen⟩, hpa⟩
  simp only [hmem]

private theorem value_in (year : τ → ℤ) (index : List τ) (rets : List ℝ) (h : rets.length = index.length)
    {res : List (ℤ × XR)} (hres : yearlySR year index rets = .ok res) (y : ℤ) (x : XR) (hx : (y, x) ∈ res) :
    (rowsInYear year index y ≤ 100 → x = .nan) ∧
    (100 < rowsInYear year index y → stdOf (valuesOfYear year (List.zip index rets) y) ≠ 0 →
      x = .fin (Real.sqrt 252 * (meanOf (valuesOfYear year (List.zip index rets) y) /
        stdOf (valuesOfYear year (List.zip index rets) y)))) ∧
    (100 < rowsInYear year index y → stdOf (valuesOfYear year (List.zip index rets) y) = 0 →
      (meanOf (valuesOfYear year (List.zip index rets) y) = 0 → x = .nan) ∧
      (0 < meanOf (valuesOfYear year (List.zip index rets) y) → x = .pinf) ∧
      (meanOf (valuesOfYear year (List.zip index rets) y) < 0 → x = .ninf)) := by
  unfold yearlySR at hres
  rw [if_neg (by simp [h])] at hres
  dsimp only at hres
  injection hres with hres
  rw [← hres, List.mem_map] at hx
  obtain ⟨y', _, hxy⟩ := hx
  rw [Prod.mk.injEq] at hxy
  obtain ⟨rfl, rfl⟩ := hxy
  rw [kept_values, len_values year index rets h]
  have h252 : (0 : ℝ) < Real.sqrt 252 := Real.sqrt_pos.2 (by norm_num)
  have hs : Real.sqrt 252 * Real.sqrt 252 = 252 := Real.mul_self_sqrt (by norm_num)
  have hval : ∀ l : List ℝ, 100 < l.length → pdMean l = .fin (meanOf l) ∧ pdStd l = .fin (stdOf l) := by
    intro l hl
    unfold pdMean pdStd meanOf stdOf
    refine ⟨if_neg (by rintro rfl; simp at hl), by rw [if_neg (by omega)]; rfl⟩
  refine ⟨fun hle => ?_, fun hlt hsd => ?_, fun hlt hsd => ?_⟩
  · rw [if_neg (by omega)]
    unfold pdMean
    rw [if_pos rfl]
    simp
  · rw [if_pos hlt]
    obtain ⟨e1, e2⟩ := hval _ (by rw [len_values year index rets h]; exact hlt)
    rw [e1, e2, XR.fin_mul, XR.fin_mul, XR.fin_div (mul_ne_zero hsd h252.ne'), XR.fin_inj]
    field_simp
    rw [sq, hs]
  · rw [if_pos hlt]
    obtain ⟨e1, e2⟩ := hval _ (by rw [len_values year index rets h]; exact hlt)
    rw [e1, e2, XR.fin_mul, XR.fin_mul, hsd, zero_mul]
    have hd : ∀ a : ℝ, (XR.fin a / XR.fin 0 : XR) = XR.infSign a := by
      intro a
      change XR.div (.fin _) (.fin 0) = _
      unfold XR.div
      exact if_pos rfl
    rw [hd]
    unfold XR.infSign
    refine ⟨fun h0 => ?_, fun h0 => ?_, fun h0 => ?_⟩
    · rw [h0, zero_mul, if_neg (lt_irrefl _), if_neg (lt_irrefl _)]
    · rw [if_pos (by positivity)]
    · rw [if_neg (by nlinarith), if_pos (by nlinarith)]

/-- **C126.** The Sharpe ratio of a year with more than 100 rows is `sqrt 252` times the mean of the returns of that year
divided by their unbiased standard deviation (if they are not all equal); a year in between with fewer rows has `nan`. -/
theorem C126_value (year : τ → ℤ) (index : List τ) (rets : List ℝ) (h : rets.length = index.length)
    {res : List (ℤ × XR)} (hres : yearlySR year index rets = .ok res) (y : ℤ) (x : XR) (hx : (y, x) ∈ res) :
    (rowsInYear year index y ≤ 100 → x = .nan) ∧
    (100 < rowsInYear year index y → stdOf (returnsIn year index rets y) ≠ 0 →
      x = .fin (Real.sqrt 252 * (meanOf (returnsIn year index rets y) /
        stdOf (returnsIn year index rets y)))) ∧
    (100 < rowsInYear year index y → stdOf (returnsIn year index rets y) = 0 →
      (meanOf (returnsIn year index rets y) = 0 → x = .nan) ∧
      (0 < meanOf (returnsIn year index rets y) → x = .pinf) ∧
      (meanOf (returnsIn year index rets y) < 0 → x = .ninf)) :=
  value_in year index rets h hres y x hx

/-- **C126.** Only a length that does not match raises. -/
theorem C126_lengths (year : τ → ℤ) (index : List τ) (rets : List ℝ) :
    (rets.length ≠ index.length → yearlySR year index rets = .error .valueError) ∧
    (rets.length = index.length → ∃ res, yearlySR year index rets = .ok res) := by
  unfold yearlySR
  exact ⟨fun h => if_pos h, fun h => ⟨_, if_neg (by simp [h])⟩⟩

private theorem values_map (year : τ → ℤ) (index : List τ) (rets : List ℝ) (f : ℝ → ℝ) (y : ℤ) :
    valuesOfYear year (List.zip index (rets.map f)) y = (valuesOfYear year (List.zip index rets) y).map f := by
  unfold valuesOfYear
  induction index generalizing rets with
  | nil => simp
  | cons t index ih =>
    cases rets with
    | nil => simp
    | cons r rets =>
      simp only [List.map_cons, List.zip_cons_cons, List.filter_cons]
      split
      · simp only [List.map_cons, ih]
      · exact ih rets

private theorem stats_scale (c : ℝ) (l : List ℝ) : meanOf (l.map (c * ·)) = c * meanOf l ∧ stdOf (l.map (c * ·)) = |c| * stdOf l := by
  have hm : meanOf (l.map (c * ·)) = c * meanOf l := by
    unfold meanOf
    rw [List.length_map, List.sum_map_mul_left, List.map_id']
    ring
  refine ⟨hm, ?_⟩
  unfold stdOf
  rw [hm, List.map_map, List.length_map]
  have : ((fun x => (x - c * meanOf l) ^ 2) ∘ fun x => c * x) = fun x => c ^ 2 * (x - meanOf l) ^ 2 := by
    funext x
    simp only [Function.comp]
    ring
  rw [this, List.sum_map_mul_left, mul_div_assoc, Real.sqrt_mul (sq_nonneg c), Real.sqrt_sq_eq_abs]

/-- **C126.** Leverage does not change the Sharpe ratios: if all returns are multiplied by `c > 0`, the result is the same. -/
theorem C126_leverage (year : τ → ℤ) (index : List τ) (rets : List ℝ) (h : rets.length = index.length) {c : ℝ} (hc : 0 < c) :
    yearlySR year index (rets.map (c * ·)) = yearlySR year index rets := by
  have h' : (rets.map (c * ·)).length = index.length := by rw [List.length_map, h]
  obtain ⟨res, e1, p1, m1⟩ := C126_years year index rets h
  obtain ⟨res', e2, p2, m2⟩ := C126_years year index (rets.map (c * ·)) h'
  rw [e1, e2]
  congr 1
  have hkeys : res'.map Prod.fst = res.map Prod.fst := by
    refine List.Perm.eq_of_pairwise (le := (· < ·)) (fun a b _ _ h1 h2 => absurd h1 (by omega)) p2 p1 ?_
    exact (List.perm_ext_iff_of_nodup (p2.imp fun h => by omega) (p1.imp fun h => by omega)).2 fun y => by rw [m1, m2]
  have hv : ∀ y x x', (y, x) ∈ res → (y, x') ∈ res' → x' = x := by
    intro y x x' hx hx'
    obtain ⟨a1, a2, a3⟩ := value_in year index rets h e1 y x hx
    obtain ⟨b1, b2, b3⟩ := value_in year index _ h' e2 y x' hx'
    rcases Nat.lt_or_ge 100 (rowsInYear year index y) with hy | hy
    · rw [values_map, (stats_scale c _).1, (stats_scale c _).2, abs_of_pos hc] at b2 b3
      by_cases hs : stdOf (valuesOfYear year (List.zip index rets) y) = 0
      · obtain ⟨a4, a5, a6⟩ := a3 hy hs
        obtain ⟨b4, b5, b6⟩ := b3 hy (by rw [hs, mul_zero])
        rcases lt_trichotomy (meanOf (valuesOfYear year (List.zip index rets) y)) 0 with h0 | h0 | h0
        · rw [a6 h0, b6 (by nlinarith)]
        · rw [a4 h0, b4 (by rw [h0, mul_zero])]
        · rw [a5 h0, b5 (by positivity)]
      · rw [a2 hy hs, b2 hy (mul_ne_zero hc.ne' hs), mul_div_mul_left _ _ hc.ne']
    · rw [a1 hy, b1 hy]
  clear e1 e2 p1 p2 m1 m2
  induction res generalizing res' with
  | nil => simpa using hkeys
  | cons p res ih =>
    cases res' with
    | nil => simp at hkeys
    | cons p' res' =>
      simp only [List.map_cons, List.cons.injEq] at hkeys
      obtain ⟨y, x⟩ := p
      obtain ⟨y', x'⟩ := p'
      obtain ⟨k1, k2⟩ := hkeys
      dsimp only at k1
      subst k1
      rw [hv y' x x' (by simp) (by simp), ih res' k2 fun y x x' h1 h2 =>
        hv y x x' (List.mem_cons_of_mem _ h1) (List.mem_cons_of_mem _ h2)]

/-- **C126.** The order of the rows does not matter. -/
theorem C126_order (year : τ → ℤ) (rows rows' : List (τ × ℝ)) (hp : rows.Perm rows') :
    yearlySR year (rows.map Prod.fst) (rows.map Prod.snd) = yearlySR year (rows'.map Prod.fst) (rows'.map Prod.snd) := by
  have hz : ∀ l : List (τ × ℝ), List.zip (l.map Prod.fst) (l.map Prod.snd) = l := by
    intro l
    induction l with
    | nil => rfl
    | cons a l ih => rw [List.map_cons, List.map_cons, List.zip_cons_cons, ih]
  have hval : ∀ y, (valuesOfYear year rows y).Perm (valuesOfYear year rows' y) := by
    intro y
    unfold valuesOfYear
    exact (hp.filter _).map _
  have hmean : ∀ l l' : List ℝ, l.Perm l' → pdMean l = pdMean l' := by
    intro l l' h
    unfold pdMean
    rw [h.sum_eq, h.length_eq]
    by_cases h0 : l = []
    · subst h0; rw [List.nil_perm.1 h]
    · rw [if_neg h0, if_neg (fun h1 => h0 (by subst h1; exact List.perm_nil.1 h))]
  have hstd : ∀ l l' : List ℝ, l.Perm l' → pdStd l = pdStd l' := by
    intro l l' h
    unfold pdStd
    rw [h.sum_eq, h.length_eq, (h.map _).sum_eq]
  unfold yearlySR
  rw [if_neg (by simp), if_neg (by simp), hz, hz]
  dsimp only
  have hk : (rows.filter fun p => 100 < (valuesOfYear year rows (year p.1)).length).Perm
      (rows'.filter fun p => 100 < (valuesOfYear year rows' (year p.1)).length) := by
    have : (fun p : τ × ℝ => decide (100 < (valuesOfYear year rows (year p.1)).length))
        = fun p : τ × ℝ => decide (100 < (valuesOfYear year rows' (year p.1)).length) := by
      funext p
      rw [(hval _).length_eq]
    rw [this]
    exact hp.filter _
  have hb : yearBins ((rows.filter fun p => 100 < (valuesOfYear year rows (year p.1)).length).map fun p => year p.1)
      = yearBins ((rows'.filter fun p => 100 < (valuesOfYear year rows' (year p.1)).length).map fun p => year p.1) := by
    refine List.Perm.eq_of_pairwise (le := (· < ·)) (fun a b _ _ h1 h2 => absurd h1 (by omega)) (yearBins_sorted _) (yearBins_sorted _) ?_
    refine (List.perm_ext_iff_of_nodup ((yearBins_sorted _).imp fun h => by omega) ((yearBins_sorted _).imp fun h => by omega)).2 fun y => ?_
    rw [mem_yearBins, mem_yearBins]
    simp only [(hk.map fun p => year p.1).mem_iff]
  rw [hb]
  congr 1
  apply List.map_congr_left
  intro y _
  have hv : (valuesOfYear year (rows.filter fun p => 100 < (valuesOfYear year rows (year p.1)).length) y).Perm
      (valuesOfYear year (rows'.filter fun p => 100 < (valuesOfYear year rows' (year p.1)).length) y) := by
    conv_lhs => unfold valuesOfYear
    conv_rhs => unfold valuesOfYear
    exact (hk.filter _).map _
  rw [hmean _ _ hv, hstd _ _ hv]

/-! Non-vacuity: 120 rows of year 2000 with returns 1, -1, 1, -1, ... and 3 rows of 2001 -/

private def demoIndex : List ℤ := List.replicate 120 2000 ++ List.replicate 3 2001

example (rets : List ℝ) (h : rets.length = 123) :
    ∃ res, yearlySR id demoIndex rets = .ok res ∧ ∀ y, y ∈ res.map Prod.fst ↔ y = 2000 := by
  obtain ⟨res, h1, _, h2⟩ := C126_years id demoIndex rets (by rw [h]; rfl)
  refine ⟨res, h1, fun y => ?_⟩
  have hr : ∀ a, 100 < rowsInYear id demoIndex a ↔ a = 2000 := by
    intro a
    unfold rowsInYear demoIndex
    rw [List.filter_append, List.length_append, List.filter_replicate, List.filter_replicate]
    simp only [id]
    by_cases h : (2000 : ℤ) = a
    · subst h; simp
    · by_cases h' : (2001 : ℤ) = a
      · subst h'; simp
      · simp [h, h', Ne.symm h]
  rw [h2]
  simp only [hr]
  constructor
  · rintro ⟨⟨_, rfl, h3⟩, _, rfl, h4⟩
    omega
  · rintro rfl
    exact ⟨⟨_, rfl, le_rfl⟩, _, rfl, le_rfl⟩

end CovPred
