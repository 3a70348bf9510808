import Verif.Lemmas.Rounded4
import Verif.Lemmas.IewmaMain

/-
The stages of `iterated_ewma` with rounding.
-/
set_option linter.unusedSectionVars false
namespace CovPred

variable {τ ι κ : Type} [DecidableEq τ] [Ix ι] [Ix κ] {F : FloatOps} {u η K A L B e : ℝ}

/-! ### averages -/

theorem mean_near [Nonempty ι] (hF : F.Accurate u η) (he : u + η = e) (he1 : e ≤ 1) {h : ℝ} (hh : 0 < h) (hacc : e ≤ neededAccuracy h) (hK : 0 ≤ K)
    (hbig : 24 * (A + K + 1 + 1 / h) ≤ F.big) (minP : Int) {T : ℕ} (hT : 0 < T) (tm : ℕ → τ) {x' x : ℕ → ι → ℝ}
    (hx : ∀ t, t < T → ∀ i, Near K A e (x' t i) (x t i)) :
    ∃ z : ℕ → ι → ℝ, ewmaMean (rfRows F (List.range T) tm x') ⟨.fin h⟩ minP none = .ok (rfRows F (rowsFrom minP T) tm z) ∧
      ∀ t, t < T → ∀ i, Near (avgK h K A) A e (z t i) (halflifeAverage h (fun k => x k i) t) := by
  obtain ⟨z, h1, h2⟩ := C187_mean hF hh (by rw [he]; exact hacc) hbig minP hT tm x' fun t ht i => (hx t ht i).abs_bound hK he1
  exact ⟨z, h1, fun t ht i => avg_near hh hF.u_nonneg he (x' := fun k => x' k i) (fun k hk => hx k (by omega) i) (h2 t ht i)⟩

theorem cov_near [Nonempty ι] (hF : F.Accurate u η) (he : u + η = e) (he1 : e ≤ 1) {h : ℝ} (hh : 0 < h) (hacc : e ≤ neededAccuracy h) (hK : 0 ≤ K)
    (hbig : 24 * (A * A + mulK K A K A + 1 + 1 / h) ≤ F.big) (minP : Int) {T : ℕ} (hT : 0 < T) (tm : ℕ → τ) {x' x : ℕ → ι → ℝ}
    (hx : ∀ t, t < T → ∀ i, Near K A e (x' t i) (x t i)) :
    ∃ z : ℕ → ι × ι → ℝ, ewmaCov (rfRows F (List.range T) tm x') ⟨.fin h⟩ minP = .ok (rfRows F (rowsFrom minP T) tm z) ∧
      ∀ t, t < T → ∀ p, Near (avgK h (mulK K A K A) (A * A)) (A * A) e (z t p) (halflifeAverage h (fun k => x k p.1 * x k p.2) t) := by
  have hA : 0 ≤ A := by obtain ⟨i⟩ := ‹Nonempty ι›; exact (abs_nonneg _).trans (hx 0 hT i).2
  have hK2 := mulK_nonneg hK hA hK hA
  have hi : 0 < 1 / h := by positivity
  have hw : ∀ t, t < T → ∀ p : ι × ι, Near (mulK K A K A) (A * A) e (F.mul (x' t p.1) (x' t p.2)) (x t p.1 * x t p.2) := fun t ht p =>
    Near.mul_of hF.u_nonneg hF.η_nonneg he he1 (hF.mul _ _) (hx t ht p.1) (hx t ht p.2) hK hK
  have hb := fun t ht p => (hw t ht p).abs_bound hK2 he1
  obtain ⟨z, h1, h2⟩ := general_round (κ := ι × ι) hF hh (by rw [he]; exact hacc) hbig minP hT tm outer x'
    (w := fun t p => F.mul (x' t p.1) (x' t p.2)) (fun t ht => by
      unfold outer rfRow
      ext p
      simp only [Arr.get_ofFn]
      rw [rf_mul, out_fin (by have := hb t ht p; linarith [abs_nonneg (F.mul (x' t p.1) (x' t p.2))])]) hb
  exact ⟨z, h1, fun t ht p => avg_near hh hF.u_nonneg he (x' := fun k => F.mul (x' k p.1) (x' k p.2))
    (fun k hk => hw k (by omega) p) (h2 t ht p)⟩

/-- constant of the volatility -/
noncomputable def volK (h m K A : ℝ) : ℝ := sqrtK m (avgK h (mulK K A K A) (A * A)) (A * A)

theorem volK_nonneg {h m : ℝ} (hh : 0 < h) (hm : 0 < m) (hK : 0 ≤ K) (hA : 0 ≤ A) : 0 ≤ volK h m K A :=
  sqrtK_nonneg hm (avgK_nonneg hh (mulK_nonneg hK hA hK hA) (mul_nonneg hA hA)) (mul_nonneg hA hA)

theorem vol_near [Nonempty ι] (hF : F.Accurate u η) (he : u + η = e) (he1 : e ≤ 1) {h m : ℝ} (hh : 0 < h) (hacc : e ≤ neededAccuracy h) (hK : 0 ≤ K)
    (hbig : 24 * (A * A + mulK K A K A + 1 + 1 / h) ≤ F.big) (hm0 : 0 < m)
    (hs : avgK h (mulK K A K A) (A * A) * e ≤ m ^ 2 / 2) (hbig2 : A * A + 1 + volK h m K A ≤ F.big)
    (minP : Int) {T : ℕ} (hT : 0 < T) (tm : ℕ → τ) {x' x : ℕ → ι → ℝ}
    (hx : ∀ t, t < T → ∀ i, Near K A e (x' t i) (x t i))
    (hv : ∀ t, t < T → minP - 1 ≤ (t : Int) → ∀ i, m ^ 2 ≤ halflifeAverage h (fun k => x k i ^ 2) t) :
    ∃ z : ℕ → ι → ℝ, volatility (rfRows F (List.range T) tm x') ⟨.fin h⟩ minP none = .ok (rfRows F (rowsFrom minP T) tm z) ∧
      ∀ t, t < T → minP - 1 ≤ (t : Int) → ∀ i,
        Near (volK h m K A) (A * A + 1) e (z t i) (Real.sqrt (halflifeAverage h (fun k => x k i ^ 2) t)) := by
  have hA : 0 ≤ A := by obtain ⟨i⟩ := ‹Nonempty ι›; exact (abs_nonneg _).trans (hx 0 hT i).2
  have hu := hF.u_nonneg
  have hη := hF.η_nonneg
  have hK2 := mulK_nonneg hK hA hK hA
  have hK3 := avgK_nonneg hh hK2 (mul_nonneg hA hA)
  have hK4 := volK_nonneg hh hm0 hK hA
  have hi : 0 < 1 / h := by positivity
  have hw : ∀ t, t < T → ∀ i, Near (mulK K A K A) (A * A) e (F.npow (x' t i) 2) (x t i ^ 2) := fun t ht i => by
    rw [sq]
    exact Near.mul_of hu hη he he1 (by have := hF.npow (x' t i) 2; rwa [sq] at this) (hx t ht i) (hx t ht i) hK hK
  have he' : (rfRows F (List.range T) tm x').mapVals (fun y => Scalar.npow y 2) = rfRows F (List.range T) tm fun t i => F.npow (x' t i) 2 := by
    unfold rfRows Frame.mapVals
    rw [List.map_map]
    refine List.map_congr_left fun t ht => ?_
    rw [List.mem_range] at ht
    refine Prod.ext rfl ?_
    simp only [Function.comp]
    unfold rfRow
    ext i
    simp only [Arr.get_map, Arr.get_ofFn]
    rw [rf_npow, out_fin (by have := (hw t ht i).abs_bound hK2 he1; linarith [abs_nonneg (F.npow (x' t i) 2)])]
  obtain ⟨s, h1, h2⟩ := mean_near hF he he1 hh hacc hK2 hbig minP hT tm hw
  have key : ∀ t, t < T → minP - 1 ≤ (t : Int) → ∀ i, 0 < s t i ∧
      Near (volK h m K A) (A * A + 1) e (F.sqrt (s t i)) (Real.sqrt (halflifeAverage h (fun k => x k i ^ 2) t)) := by
    intro t ht hm i
    have hl := (h2 t ht i).lower (hv t ht hm i) hs
    have hsp : 0 < s t i := lt_of_lt_of_le (by positivity) hl
    exact ⟨hsp, Near.sqrt_of hu hη he he1 (hF.sqrt _ hsp.le) (h2 t ht i) hK3 hm0 (hv t ht hm i) hs⟩
  refine ⟨fun t i => F.sqrt (s t i), ?_, fun t ht hm i => (key t ht hm i).2⟩
  unfold volatility variance
  simp only [Scalar.truthy, Option.map_none]
  rw [he', h1]
  show Except.ok _ = _
  congr 1
  unfold Frame.mapVals rfRows
  rw [List.map_map]
  refine List.map_congr_left fun t ht => ?_
  obtain ⟨htT, htm⟩ := mem_rowsFrom.1 ht
  refine Prod.ext rfl ?_
  simp only [Function.comp]
  unfold rfRow
  ext i
  simp only [Arr.get_map, Arr.get_ofFn]
  obtain ⟨k1, k2⟩ := key t htT htm i
  show RF.sqrt _ = _
  simp only [RF.sqrt]
  rw [if_neg (by linarith)]
  exact out_fin ((k2.abs_bound hK4 he1).trans hbig2)

/-! ### frames -/

theorem rf_loc {T : ℕ} {tm : ℕ → τ} (hd : DistinctTimes T tm)
    (y : ℕ → ι → ℝ) {l : List ℕ} (hl : ∀ k ∈ l, k < T) {t : ℕ} (ht : t < T) :
    (rfRows F l tm y).loc? (tm t) = if t ∈ l then some (rfRow F (y t)) else none := by
  unfold Frame.loc? rfRows
  exact lookup_map tm _ l t (fun k hk h => hd k t (hl k hk) ht h)

theorem rf_reindex (S : List ℕ) (tm : ℕ → τ) (a : ℕ → ι → ℝ) :
    rfRows F S tm a = rfRows F (List.range S.length) (fun j => tm (S.getD j 0)) (fun j => a (S.getD j 0)) := by
  unfold rfRows
  apply List.ext_getElem
  · simp
  · intro n h1 h2
    have : n < S.length := by simpa using h1
    simp [this]

theorem rf_hasNaN (l : List ℕ) (tm : ℕ → τ) (x : ℕ → ι → ℝ) : (rfRows F l tm x).hasNaN = false := by
  unfold Frame.hasNaN rfRows
  rw [List.any_eq_false]
  intro p hp
  obtain ⟨k, _, rfl⟩ := List.mem_map.mp hp
  simp only [Bool.not_eq_true, Bool.not_eq_false']
  rw [Arr.all_iff]
  intro i
  simp only [rfRow, Arr.get_ofFn]
  rfl

theorem rf_dropna [Nonempty ι] (l : List ℕ) (tm : ℕ → τ) (x : ℕ → ι → ℝ) : (rfRows F l tm x).dropnaAll = rfRows F l tm x := by
  unfold Frame.dropnaAll
  rw [List.filter_eq_self]
  intro p hp
  obtain ⟨k, _, rfl⟩ := List.mem_map.mp hp
  rw [rf_all_isNaN]; rfl

theorem rf_fillna (l : List ℕ) (tm : ℕ → τ) (x : ℕ → ι → ℝ) : (rfRows F l tm x).fillna0 = rfRows F l tm x := by
  unfold Frame.fillna0 Frame.mapVals rfRows
  rw [List.map_map]
  refine List.map_congr_left fun k _ => ?_
  refine Prod.ext rfl ?_
  simp only [Function.comp]
  unfold rfRow
  ext i
  simp only [Arr.get_map, Arr.get_ofFn]
  exact if_neg (by show ¬ (false = true); simp)

/-- constant of centring -/
noncomputable def centreK (h K A : ℝ) : ℝ := addK K A (avgK h K A) A

theorem centreK_nonneg {h : ℝ} (hh : 0 < h) (hK : 0 ≤ K) (hA : 0 ≤ A) : 0 ≤ centreK h K A :=
  addK_nonneg hK hA (avgK_nonneg hh hK hA) hA

theorem centre_near [Nonempty ι] (hF : F.Accurate u η) (he : u + η = e) (he1 : e ≤ 1) {h : ℝ} (hh : 0 < h) (hacc : e ≤ neededAccuracy h) (hK : 0 ≤ K)
    (hbig : 24 * (A + K + 1 + 1 / h) ≤ F.big) (hbig2 : A + A + centreK h K A ≤ F.big) (mean : Bool) {T : ℕ} (hT : 0 < T) {tm : ℕ → τ}
    (hd : DistinctTimes T tm) {x' x : ℕ → ι → ℝ} (hx : ∀ t, t < T → ∀ i, Near K A e (x' t i) (x t i)) :
    ∃ (c m : ℕ → ι → ℝ) (f : Frame τ ι (RF F)), center (rfRows F (List.range T) tm x') ⟨.fin h⟩ 0 mean = .ok (rfRows F (List.range T) tm c, f) ∧
      (mean = true → f = rfRows F (List.range T) tm m) ∧
      (∀ t, t < T → ∀ i, Near (centreK h K A) (A + A) e (c t i) (x t i - muOf mean h x t i)) ∧
      (mean = true → ∀ t, t < T → ∀ i, Near (avgK h K A) A e (m t i) (muOf mean h x t i)) := by
  have hA : 0 ≤ A := by obtain ⟨i⟩ := ‹Nonempty ι›; exact (abs_nonneg _).trans (hx 0 hT i).2
  have hKc := centreK_nonneg hh hK hA
  have hKa := avgK_nonneg hh hK hA
  have he0 : 0 ≤ e := by have := hF.u_nonneg; have := hF.η_nonneg; linarith
  cases mean with
  | false =>
    refine ⟨x', x, _, rfl, fun h => absurd h (by decide), fun t ht i => ?_, fun h => absurd h (by decide)⟩
    simp only [muOf, Bool.false_eq_true, if_false, sub_zero]
    refine (hx t ht i).mono he0 ?_ (by linarith)
    unfold centreK addK; linarith
  | true =>
    obtain ⟨m, h1, h2⟩ := mean_near hF he he1 hh hacc hK hbig 0 hT tm hx
    have h3 : ∀ t, t < T → ∀ i, Near (centreK h K A) (A + A) e (F.sub (x' t i) (m t i)) (x t i - muOf true h x t i) := fun t ht i => by
      simp only [muOf, if_true]
      exact Near.sub_of hF.u_nonneg hF.η_nonneg he he1 (hF.sub _ _) (hx t ht i) (h2 t ht i) hK hKa
    refine ⟨fun t i => F.sub (x' t i) (m t i), m, _, ?_, fun _ => rfl, h3, fun _ t ht i => ?_⟩
    · unfold center
      simp only [if_true]
      rw [h1]
      simp only [Except.map]
      rw [rowsFrom_zero]
      congr 2
      have hmap : Frame.alignWith (· - ·) (rfRows F (List.range T) tm x') (rfRows F (List.range T) tm m) =
          rfRows F (List.range T) tm fun t i => F.sub (x' t i) (m t i) := by
        unfold Frame.alignWith
        conv_lhs => rw [show rfRows F (List.range T) tm x' = (List.range T).map fun t => (tm t, rfRow F (x' t)) from rfl]
        rw [List.map_map]
        show _ = (List.range T).map fun t => (tm t, rfRow F fun i => F.sub (x' t i) (m t i))
        refine List.map_congr_left fun t ht => ?_
        have ht' := List.mem_range.mp ht
        simp only [Function.comp]
        rw [rf_loc hd m (fun k hk => List.mem_range.1 hk) ht', if_pos ht]
        congr 1
        unfold rfRow
        ext i
        simp only [Arr.get_ofFn]
        rw [rf_sub]
        exact out_fin (((h3 t ht' i).abs_bound hKc he1).trans hbig2)
      rw [hmap, rf_dropna]
    · simp only [muOf, if_true]
      exact h2 t ht i

/-- division by the volatilities -/
theorem adj_round [Nonempty ι] {T : ℕ} {tm : ℕ → τ} (hd : DistinctTimes T tm) (mv : Int) {c v : ℕ → ι → ℝ}
    (hv : ∀ t, t < T → mv - 1 ≤ (t : Int) → ∀ i, v t i ≠ 0) (hb : ∀ t, t < T → mv - 1 ≤ (t : Int) → ∀ i, |F.div (c t i) (v t i)| ≤ F.big) :
    (clip (Frame.alignWith (· / ·) (rfRows F (List.range T) tm c) (rfRows F (rowsFrom mv T) tm v)) none).fillna0 =
      rfRows F (rowsFrom mv T) tm fun t i => F.div (c t i) (v t i) := by
  have hmap : Frame.alignWith (· / ·) (rfRows F (List.range T) tm c) (rfRows F (rowsFrom mv T) tm v) =
      (List.range T).map fun t => (tm t, if mv - 1 ≤ (t : Int) then rfRow F fun i => F.div (c t i) (v t i) else Arr.ofFn fun _ => Scalar.nan) := by
    unfold Frame.alignWith
    conv_lhs => rw [show rfRows F (List.range T) tm c = (List.range T).map fun t => (tm t, rfRow F (c t)) from rfl]
    rw [List.map_map]
    refine List.map_congr_left fun t ht => ?_
    have ht' := List.mem_range.mp ht
    simp only [Function.comp]
    rw [rf_loc hd v (fun k hk => rowsFrom_lt hk) ht']
    congr 1
    by_cases h : mv - 1 ≤ (t : Int)
    · rw [if_pos (mem_rowsFrom.mpr ⟨ht', h⟩), if_pos h]
      unfold rfRow
      ext i
      simp only [Arr.get_ofFn]
      rw [rf_div (hv t ht' h i)]
      exact out_fin (hb t ht' h i)
    · rw [if_neg (fun hm => h (mem_rowsFrom.mp hm).2), if_neg h]
  have hclip : clip (Frame.alignWith (· / ·) (rfRows F (List.range T) tm c) (rfRows F (rowsFrom mv T) tm v)) none =
      rfRows F (rowsFrom mv T) tm fun t i => F.div (c t i) (v t i) := by
    unfold clip
    simp only [Scalar.truthy]
    rw [hmap]
    unfold Frame.dropnaAll rfRows rowsFrom
    clear hmap hv hb
    induction List.range T with
    | nil => rfl
    | cons k l ih =>
      rw [List.map_cons, List.filter_cons, List.filter_cons, ih]
      by_cases h : mv - 1 ≤ (k : Int)
      · simp [h, rf_all_isNaN]
      · have : (Arr.ofFn fun _ => Scalar.nan : Arr ι (RF F)).all Scalar.isNaN = true := by
          rw [Arr.all_iff]
          intro i
          rw [Arr.get_ofFn]; rfl
        simp [h, this]
  rw [hclip, rf_fillna]

end CovPred
