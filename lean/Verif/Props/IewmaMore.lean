import Verif.Props.Iewma
import Verif.Props.Special
import Verif.Lemmas.Equiv

/-
Further properties of `iterated_ewma` (C58 independence of assets, C59 first covariance with `mean=True`,
C60 time labels are opaque).
-/
set_option linter.unusedSectionVars false
namespace CovPred
open XR

variable {τ τ' ι κ : Type} [DecidableEq τ] [DecidableEq τ'] [Ix ι] [Ix κ]

/-! ### C58: an entry depends on its own assets only -/

theorem Represents.trunc {f : Frame τ ι XR} {n : Bool} {T : ℕ} {tm : ℕ → τ} {x : ℕ → ι → ℝ}
    (h : Represents f n T tm x) : Represents f n T tm (fun t i => if t < T then x t i else 0) := by
  obtain ⟨R, h1, h2⟩ := h
  refine ⟨R, h1, fun t ht i => ?_⟩
  simp only [if_pos ht]
  exact h2 t ht i

theorem cRet_col {a : RealArgs} {x y : ℕ → ι → ℝ} {i : ι} (h : ∀ t, x t i = y t i) (t : ℕ) :
    cRet a x t i = cRet a y t i := by
  unfold cRet muOf
  simp only [h]

theorem volSq_col {a : RealArgs} {x y : ℕ → ι → ℝ} {i : ι} (h : ∀ t, x t i = y t i) (t : ℕ) :
    volSq a x t i = volSq a y t i := by
  unfold volSq
  simp only [cRet_col h]

theorem live_active {a : RealArgs} (ha : a.Valid) {T : ℕ} {x : ℕ → ι → ℝ} {i : ι} {k : ℕ}
    (hk : (k : Int) ≤ a.minPeriodsVola - 1 ∨ k = 0) (hx : cRet a x k i ≠ 0) :
    live a T x = rowsFrom a.minPeriodsVola T := by
  unfold live rowsFrom
  apply List.filter_congr
  intro t _
  rw [decide_eq_decide]
  constructor
  · exact fun h => h.1
  · intro h
    refine ⟨h, i, fun hh => hx ?_⟩
    have := (volSq_zero_iff ha x t i).mp hh.1 k (by omega) (by omega)
    exact this

/-- If asset `i` has a non-zero (centred) return within the first `min_periods_vola` rows then its volatility and
mean, its covariance with any asset `j`, and the yielded times depend on the returns of `i` and `j` only: any two
return frames that agree on these two columns give the same values. -/
theorem C58_asset_independence [Nonempty ι] {f g : Frame τ ι XR} {a : RealArgs} (ha : a.Valid) {T : ℕ} {tm : ℕ → τ}
    (hd : DistinctTimes T tm) {x y : ℕ → ι → ℝ} (hf : Represents f a.nanToNum T tm x)
    (hg : Represents g a.nanToNum T tm y) (i j : ι) (hi : ∀ t < T, x t i = y t i) (hj : ∀ t < T, x t j = y t j)
    {k : ℕ} (hkT : k < T) (hk : (k : Int) ≤ a.minPeriodsVola - 1 ∨ k = 0) (hact : cRet a x k i ≠ 0)
    {rs rs' : List (IEWMA τ ι XR)} (hrs : iteratedEwma f a.toArgs = .ok rs) (hrs' : iteratedEwma g a.toArgs = .ok rs') :
    List.Forall₂ (fun r r' => r.time = r'.time ∧ r.volatility i = r'.volatility i ∧ r.mean i = r'.mean i ∧
      r.covariance (i, j) = r'.covariance (i, j)) rs rs' := by
  obtain ⟨_, e1⟩ := results_of_ok ha hd hf.trunc hrs
  obtain ⟨_, e2⟩ := results_of_ok ha hd hg.trunc hrs'
  set X : ℕ → ι → ℝ := fun t i => if t < T then x t i else 0 with hX
  set Y : ℕ → ι → ℝ := fun t i => if t < T then y t i else 0 with hY
  have hXi : ∀ t, X t i = Y t i := fun t => by
    simp only [hX, hY]; split
    · exact hi t ‹_›
    · rfl
  have hXj : ∀ t, X t j = Y t j := fun t => by
    simp only [hX, hY]; split
    · exact hj t ‹_›
    · rfl
  have hact' : cRet a X k i ≠ 0 := by
    have : cRet a X k i = cRet a x k i := by
      unfold cRet muOf
      have h1 : X k i = x k i := by simp [hX, hkT]
      rw [h1]
      split
      · congr 1
        unfold halflifeAverage
        congr 1
        apply Finset.sum_congr rfl
        intro n hn
        have : n < T := by have := Finset.mem_range.mp hn; omega
        simp [hX, this]
      · rfl
    rwa [this]
  have hl1 : live a T X = rowsFrom a.minPeriodsVola T := live_active ha hk hact'
  have hl2 : live a T Y = rowsFrom a.minPeriodsVola T := live_active ha hk (by rwa [← cRet_col hXi])
  have hadj : ∀ l : ι, (∀ t, X t l = Y t l) → ∀ n, adjAt a T X n l = adjAt a T Y n l := by
    intro l hl n
    unfold adjAt vol
    rw [hl1, hl2, cRet_col hl, volSq_col hl]
  have hz : ∀ l : ι, (∀ t, X t l = Y t l) → ∀ n, zAt a T X n l = zAt a T Y n l := by
    intro l hl n
    unfold zAt muOf
    simp only [hadj l hl]
  have hcov : ∀ l m : ι, (∀ t, X t l = Y t l) → (∀ t, X t m = Y t m) → ∀ n,
      covAt a T X n (l, m) = covAt a T Y n (l, m) := by
    intro l m hl hm n
    unfold covAt
    simp only [hz l hl, hz m hm]
  rw [e1, e2, hl1, hl2, List.forall₂_map_left_iff, List.forall₂_map_right_iff, List.forall₂_same]
  intro n _
  have hvol : ∀ l : ι, (∀ t, X t l = Y t l) → ∀ t, vol a X t l = vol a Y t l := by
    intro l hl t
    unfold vol
    rw [volSq_col hl]
  refine ⟨?_, ?_, ?_, ?_⟩
  · simp only [itemAt, hl1, hl2]
  · simp only [itemAt, hl1, hl2, finRow, Arr.get_ofFn, hvol i hXi]
  · simp only [itemAt, finRow, Arr.get_ofFn]
    unfold meanAt muOf
    simp only [hl1, hl2, hvol i hXi, hadj i hXi, hXi]
  · simp only [itemAt, Arr.get_ofFn]
    unfold sigmaAt
    simp only [hcov i i hXi hXi, hcov j j hXj hXj, hcov i j hXi hXj, hl1, hl2, hvol i hXi, hvol j hXj]

example : (0 : ℕ) < 3 ∧ ((0 : ℕ) = 0) ∧ cRet Ex.args Ex.x 0 0 ≠ 0 := by
  refine ⟨by norm_num, rfl, ?_⟩
  simp [cRet, muOf, Ex.args, Ex.x]

/-! ### C59: the first covariance in mean mode -/

/-- With `mean=True` and `min_periods_cov <= 1` the first result always has a covariance that is `nan` in every
entry (the first adjusted return is centred to zero). -/
theorem C59_first_covariance_nan [Nonempty ι] {f : Frame τ ι XR} {a : RealArgs} (ha : a.Valid) {T : ℕ} {tm : ℕ → τ}
    (hd : DistinctTimes T tm) {x : ℕ → ι → ℝ} (hf : Represents f a.nanToNum T tm x) (hm : a.mean = true)
    (hmp : a.minPeriodsCov ≤ 1) {rs : List (IEWMA τ ι XR)} (h : iteratedEwma f a.toArgs = .ok rs) :
    ∃ r rest, rs = r :: rest ∧ ∀ p, r.covariance p = nan := by
  obtain ⟨hne, rfl⟩ := results_of_ok ha hd hf h
  obtain ⟨n, hn⟩ : ∃ n, (live a T x).length = n + 1 := by
    cases hl : live a T x with
    | nil => exact absurd hl hne
    | cons b l => exact ⟨l.length, rfl⟩
  have : rowsFrom a.minPeriodsCov (n + 1) = 0 :: (List.range n).map Nat.succ := by
    rw [rowsFrom_eq_drop, show (a.minPeriodsCov - 1).toNat = 0 by omega, List.drop_zero, List.range_succ_eq_map]
  rw [hn, this]
  refine ⟨_, _, rfl, fun p => ?_⟩
  have hz : ∀ i, zAt a T x 0 i = 0 := by
    intro i
    simp [zAt, muOf, hm, halflifeAverage]
  simp [itemAt, sigmaAt, covAt, halflifeAverage, hz]

/-- a run in mean mode -/
noncomputable def Ex.args3 : RealArgs where
  volaHalflife := 2
  covHalflife := 3
  minPeriodsVola := 1
  minPeriodsCov := 1
  mean := true

example : ∃ rs, iteratedEwma Ex.frame Ex.args3.toArgs = .ok rs := by
  have hv : Ex.args3.Valid := ⟨by norm_num [Ex.args3], by norm_num [Ex.args3], by simp [Ex.args3], by simp [Ex.args3]⟩
  rw [C57_functional_correctness hv Ex.distinct (show Represents Ex.frame Ex.args3.nanToNum 3 id Ex.x from Ex.represents),
    if_neg]
  · exact ⟨_, rfl⟩
  · intro h
    have : (1 : ℕ) ∈ live Ex.args3 3 Ex.x := by
      rw [mem_live]
      refine ⟨by norm_num, by simp [Ex.args3], 0, fun hh => ?_⟩
      have h2 := hh.2
      have hb : (2 : ℝ) ^ (-((1 : ℝ) / orElse none 2)) > 0 := Real.rpow_pos_of_pos (by norm_num) _
      simp only [cRet, muOf, Ex.args3, RealArgs.mu1h, if_true, halflifeAverage, Ex.x, Finset.sum_range_succ,
        Finset.range_zero, Finset.sum_empty] at h2
      simp only [Nat.cast_one, Nat.cast_zero, Nat.sub_zero, Nat.sub_self, neg_zero, zero_div,
        Real.rpow_zero, zero_add, one_mul, mul_one] at h2
      field_simp at h2
      linarith
    rw [h] at this
    cases this

/-! ### C60: labels -/

/-- the frame with other labels -/
def relabel (g : τ → τ') {α : Type} (f : Frame τ ι α) : Frame τ' ι α := f.map fun p => (g p.1, p.2)

section Relabel
variable {α : Type} [Scalar α]

theorem generalLoop_relabel (g : τ → τ') (b : α) (fct : Arr ι α → Arr κ α) (mp : Int) (cl : Option α) (n : ℕ)
    (E : Arr κ α) (f : Frame τ ι α) :
    generalLoop b fct mp cl n E (relabel g f) = relabel g (generalLoop b fct mp cl n E f) := by
  induction f generalizing n E with
  | nil => rfl
  | cons p f ih =>
    obtain ⟨t, r⟩ := p
    change _ :: _ = _ :: _
    congr 1
    exact ih _ _

theorem general_relabel (g : τ → τ') (f : Frame τ ι α) (hl al : Option α) (fct : Arr ι α → Arr κ α) (mp : Int)
    (cl : Option α) : general (relabel g f) hl al fct mp cl = (general f hl al fct mp cl).map (relabel g) := by
  unfold general
  cases decay hl al with
  | error e => rfl
  | ok b =>
    cases f with
    | nil => rfl
    | cons p f =>
      obtain ⟨t, r⟩ := p
      simp only [relabel, List.map_cons, Except.map]
      congr 2
      exact generalLoop_relabel g b fct mp cl _ _ f

theorem filter_relabel (g : τ → τ') (P : Arr ι α → Bool) (f : Frame τ ι α) :
    (relabel g f).filter (fun p => P p.2) = relabel g (f.filter fun p => P p.2) := by
  unfold relabel
  rw [List.filter_map]
  rfl

theorem ewmaMean_relabel (g : τ → τ') (f : Frame τ ι α) (h : α) (mp : Int) (cl : Option α) :
    ewmaMean (relabel g f) h mp cl = (ewmaMean f h mp cl).map (relabel g) := by
  unfold ewmaMean
  rw [general_relabel]
  cases general f (some h) none (fun x => x) mp cl with
  | error e => rfl
  | ok r => simp only [Except.map]; rw [filter_relabel g fun r => !(r.all Scalar.isNaN)]

theorem ewmaCov_relabel (g : τ → τ') (f : Frame τ ι α) (h : α) (mp : Int) :
    ewmaCov (relabel g f) h mp = (ewmaCov f h mp).map (relabel g) := by
  unfold ewmaCov
  rw [general_relabel]
  cases general f (some h) none outer mp none with
  | error e => rfl
  | ok r => simp only [Except.map]; rw [filter_relabel g fun r => !(r.all Scalar.isNaN)]

theorem mapVals_relabel (g : τ → τ') (k : α → α) (f : Frame τ ι α) :
    (relabel g f).mapVals k = relabel g (f.mapVals k) := by
  unfold relabel Frame.mapVals
  rw [List.map_map, List.map_map]; rfl

theorem volatility_relabel (g : τ → τ') (f : Frame τ ι α) (h : α) (mp : Int) (cl : Option α) :
    volatility (relabel g f) h mp cl = (volatility f h mp cl).map (relabel g) := by
  unfold volatility variance
  dsimp only
  rw [mapVals_relabel, ewmaMean_relabel]
  cases ewmaMean (f.mapVals fun x => Scalar.npow x 2) h mp _ with
  | error e => rfl
  | ok r => simp only [Except.map]; rw [mapVals_relabel]

theorem loc_relabel {g : τ → τ'} (hg : Function.Injective g) (f : Frame τ ι α) (t : τ) :
    (relabel g f).loc? (g t) = f.loc? t := by
  unfold Frame.loc? relabel
  induction f with
  | nil => rfl
  | cons p f ih =>
    obtain ⟨s, r⟩ := p
    rw [List.map_cons, List.lookup_cons, List.lookup_cons]
    have : (g t == g s) = (t == s) := by
      rw [Bool.eq_iff_iff, beq_iff_eq, beq_iff_eq]; exact hg.eq_iff
    rw [this, ih]

theorem align_relabel {g : τ → τ'} (hg : Function.Injective g) (op : α → α → α) (f k : Frame τ ι α) :
    Frame.alignWith op (relabel g f) (relabel g k) = relabel g (Frame.alignWith op f k) := by
  unfold Frame.alignWith
  have hx : relabel g f = f.map fun p => (g p.1, p.2) := rfl
  rw [hx, List.map_map]
  conv_rhs => rw [relabel, List.map_map]
  apply List.map_congr_left
  intro p _
  simp only [Function.comp]
  rw [loc_relabel hg]

theorem center_relabel {g : τ → τ'} (hg : Function.Injective g) (f : Frame τ ι α) (h : α) (mp : Int) (mean : Bool) :
    center (relabel g f) h mp mean = (center f h mp mean).map fun cm => (relabel g cm.1, relabel g cm.2) := by
  unfold center
  cases mean with
  | false => simp only [Bool.false_eq_true, if_false, Except.map]; rw [mapVals_relabel]
  | true =>
    simp only [if_true]
    rw [ewmaMean_relabel]
    cases ewmaMean f h mp none with
    | error e => rfl
    | ok r =>
      simp only [Except.map, Frame.dropnaAll]
      rw [align_relabel hg, filter_relabel g fun r => !(r.all Scalar.isNaN)]

theorem filled_relabel (g : τ → τ') (f : Frame τ ι α) (a : IewmaArgs α) :
    filled (relabel g f) a = relabel g (filled f a) := by
  rw [filled_eq, filled_eq]
  split
  · exact mapVals_relabel g _ f
  · rfl

theorem clip_relabel (g : τ → τ') (f : Frame τ ι α) (cl : Option α) :
    clip (relabel g f) cl = relabel g (clip f cl) := by
  unfold clip Frame.dropnaAll
  cases Scalar.truthy cl with
  | none => exact filter_relabel g (fun r => !(r.all Scalar.isNaN)) f
  | some c => simp only []; rw [mapVals_relabel, filter_relabel g fun r => !(r.all Scalar.isNaN)]

theorem item_relabel {g : τ → τ'} (hg : Function.Injective g) (mean : Bool) (v rm am : Frame τ ι α) (t : τ)
    (M : Arr (ι × ι) α) : iewmaItem mean (relabel g v) (relabel g rm) (relabel g am) (g t) M =
      (iewmaItem mean v rm am t M).map fun r => { r with time := g r.time } := by
  unfold iewmaItem locE
  rw [loc_relabel hg, loc_relabel hg, loc_relabel hg]
  cases mean with
  | false => cases v.loc? t <;> rfl
  | true => cases v.loc? t <;> cases rm.loc? t <;> cases am.loc? t <;> rfl

/-- Without any sorting (see `Model/EwmaOrder`) only the identity of the labels matters. -/
theorem relabel_injective {g : τ → τ'} (hg : Function.Injective g) (f : Frame τ ι α) (a : IewmaArgs α) :
    iteratedEwma (f.map fun p => (g p.1, p.2)) a =
      (iteratedEwma f a).map (List.map fun r => { r with time := g r.time }) := by
  change iteratedEwma (relabel g f) a = _
  rw [iteratedEwma_steps, iteratedEwma_steps, filled_relabel, center_relabel hg, except_map_bind, except_bind_map]
  congr 1
  funext cm
  rw [volatility_relabel, except_map_bind, except_bind_map]
  congr 1
  funext vola
  rw [align_relabel hg, clip_relabel, Frame.fillna0, mapVals_relabel, center_relabel hg, except_map_bind,
    except_bind_map]
  congr 1
  funext am
  rw [ewmaCov_relabel, except_map_bind, except_bind_map]
  congr 1
  funext covs
  rw [mapM_map_except]
  have hc : relabel g covs = covs.map fun p => (g p.1, p.2) := rfl
  rw [hc, List.mapM_map]
  congr 1
  funext p
  exact item_relabel hg _ _ _ _ _ _

end Relabel

end CovPred
