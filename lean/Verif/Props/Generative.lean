import Verif.Model.Generative
import Verif.Props.RealizedEwma
import Verif.Lemmas.Backtests

/-
Properties C138 and C139: the generative mode.
-/
set_option linter.unusedSectionVars false
namespace CovPred
open XR

variable {τ ι : Type} [DecidableEq τ] [Ix ι]

/-- The half-life weighted average of the outer products of `z 0, ..., z t`. -/
noncomputable def avgOuter (h : ℝ) (z : ℕ → ι → ℝ) (t : ℕ) : ι × ι → ℝ :=
  fun p => halflifeAverage h (fun s => z s p.1 * z s p.2) t

/-- `draw` says what `np.random.multivariate_normal` returns: finite samples for finite covariances. -/
def Draws (sample : ℕ → Arr (ι × ι) XR → Except Err (Arr ι XR)) (draw : ℕ → (ι × ι → ℝ) → ι → ℝ) : Prop :=
  ∀ i A, sample i (finRow A) = .ok (finRow (draw i A))

private theorem avgOuter_congr {h : ℝ} {z z' : ℕ → ι → ℝ} {t : ℕ} (H : ∀ s ≤ t, z s = z' s) :
    avgOuter h z t = avgOuter h z' t := by
  funext p
  unfold avgOuter halflifeAverage
  congr 1
  refine Finset.sum_congr rfl fun s hs => ?_
  rw [Finset.mem_range] at hs
  dsimp only
  rw [H s (by omega)]

private theorem step_fin {h : ℝ} (hh : 0 < h) (z : ℕ → ι → ℝ) (t : ℕ) :
    (Arr.ofFn fun p => finRow (avgOuter h z t) p + (1 - fin (betaOf h)) * (outer (finRow (z (t + 1))) p
      - finRow (avgOuter h z t) p) / (1 - Scalar.npow (fin (betaOf h)) (t + 1 + 1)) : Arr (ι × ι) XR)
      = finRow (avgOuter h z (t + 1)) := by
  have h0 := betaOf_pos h
  have h1 := betaOf_lt_one hh
  ext p
  simp only [finRow, outer, Arr.get_ofFn, one_def, fin_sub, fin_mul, fin_npow]
  rw [fin_div (one_sub_pow_pos h0 h1 (t + 1)).ne', fin_add]
  unfold avgOuter
  rw [halflifeAverage_eq, halflifeAverage_eq, ← emaAvg_succ h0 h1]

private theorem loop_none {sample : ℕ → Arr (ι × ι) XR → Except Err (Arr ι XR)} {draw} (hd : Draws sample draw) {h : ℝ}
    (hh : 0 < h) {T : ℕ} {z : ℕ → ι → ℝ} (hz : ∀ i, z (T + 1 + i) = draw i (avgOuter h z (T + i))) : ∀ (k i : ℕ),
    genLoop sample (fin (betaOf h)) none i k (T + i) (finRow (avgOuter h z (T + i)))
      = ((List.range' i k).map fun j => (j, finRow (draw j (avgOuter h z (T + j)))), none) := by
  intro k
  induction k with
  | zero => intro i; rfl
  | succ k ih =>
    intro i
    rw [genLoop, hd]
    dsimp only [genLoop.nextSample]
    have e : draw i (avgOuter h z (T + i)) = z (T + i + 1) := by rw [← hz]; congr 1; omega
    rw [List.range'_succ, List.map_cons, e, step_fin hh]
    have := ih (i + 1)
    rw [show T + (i + 1) = T + i + 1 by omega] at this
    rw [this]

private theorem loop_some {sample : ℕ → Arr (ι × ι) XR → Except Err (Arr ι XR)} {draw} (hd : Draws sample draw) {h : ℝ}
    (hh : 0 < h) {T : ℕ} {z g : ℕ → ι → ℝ} {G : ℕ} (hz : ∀ i < G, z (T + 1 + i) = g i) : ∀ (k i : ℕ), i ≤ G →
    genLoop sample (fin (betaOf h)) (some ((List.range G).map fun j => finRow (g j))) i k (T + i) (finRow (avgOuter h z (T + i)))
      = ((List.range' i (min k (G - i))).map fun j => (j, finRow (draw j (avgOuter h z (T + j)))),
        if i + k ≤ G then none else some .indexError) := by
  intro k
  induction k with
  | zero => intro i hi; rw [genLoop, Nat.add_zero, if_pos hi, Nat.zero_min]; rfl
  | succ k ih =>
    intro i hi
    rw [genLoop, hd]
    dsimp only [genLoop.nextSample]
    by_cases hG : i < G
    · have e : ((List.range G).map fun j => finRow (g j))[i]? = some (finRow (z (T + i + 1))) := by
        rw [List.getElem?_map, List.getElem?_range hG, Option.map_some, ← hz i hG]
        congr 3; omega
      rw [e]
      dsimp only
      rw [step_fin hh]
      have := ih (i + 1) hG
      rw [show T + (i + 1) = T + i + 1 by omega] at this
      rw [this]
      rw [show min (k + 1) (G - i) = min k (G - (i + 1)) + 1 by omega, List.range'_succ, List.map_cons]
      congr 1
      by_cases hc : i + 1 + k ≤ G
      · rw [if_pos hc, if_pos (by omega)]
      · rw [if_neg hc, if_neg (by omega)]
    · have e : ((List.range G).map fun j => finRow (g j))[i]? = none := by
        rw [List.getElem?_eq_none]; simp; omega
      rw [e, show G - i = 0 by omega, Nat.min_zero, if_neg (by omega)]
      rfl

private theorem exists_rec {A : Type} (T : ℕ) (x : ℕ → A) (F : ℕ → (ℕ → A) → A)
    (hF : ∀ i z z', (∀ s < T + i, z s = z' s) → F i z = F i z') :
    ∃ z : ℕ → A, (∀ s < T, z s = x s) ∧ ∀ i, z (T + i) = F i z := by
  let ext : ℕ → ℕ → A := fun i => i.rec x fun i e => Function.update e (T + i) (F i e)
  have h1 : ∀ i, ext (i + 1) = Function.update (ext i) (T + i) (F i (ext i)) := fun i => rfl
  have h2 : ∀ i k s, s < T + i → ext (i + k) s = ext i s := by
    intro i k s hs
    induction k with
    | zero => rfl
    | succ k ih =>
      rw [← add_assoc, h1, Function.update_of_ne (by omega), ih]
  refine ⟨fun s => ext (s + 1 - T) s, fun s hs => ?_, fun i => ?_⟩
  · have : s + 1 - T = 0 := by omega
    simp only [this]
    rfl
  · have e : T + i + 1 - T = i + 1 := by omega
    simp only [e]
    rw [h1, Function.update_self]
    refine hF i _ _ fun s hs => ?_
    have := h2 (s + 1 - T) (i - (s + 1 - T)) s (by omega)
    rw [← this]
    congr 1
    omega

private theorem mask_small {κ : Type} [Ix κ] {m : Int} (hm : m ≤ 1) (k : ℕ) (a : Arr κ XR) : maskWarmup m k a = a := by
  unfold maskWarmup
  rw [if_neg (by omega)]

private theorem gen_eq [Nonempty ι] (sample : ℕ → Arr (ι × ι) XR → Except Err (Arr ι XR)) {h : ℝ} (hh : 0 < h) {m : Int}
    (hm : m ≤ 1) (T : ℕ) (tm : ℕ → τ) (x : ℕ → ι → ℝ) (nS : Int) (g : Option (List (Arr ι XR))) :
    genEwmaCov sample (finFrame (T + 1) tm x) (fin h) m nS g
      = ⟨finFrame (T + 1) tm (avgOuter h x),
        (genLoop sample (fin (betaOf h)) g 0 nS.toNat T (finRow (avgOuter h x T))).1,
        (genLoop sample (fin (betaOf h)) g 0 nS.toNat T (finRow (avgOuter h x T))).2⟩ := by
  have hgen : general (finFrame (T + 1) tm x) (some (fin h)) none outer m none
      = .ok ((List.range (T + 1)).map fun k => (tm k, finRow (avgOuter h x k))) := by
    unfold finFrame finRows
    rw [general_range (decay_fin hh.ne' none) _ _ _ _ _ (by omega)]
    congr 1
    refine List.map_congr_left fun k _ => ?_
    rw [mask_small hm]
    simp only [outer_fin]
    rw [ewSeq_fin (betaOf_pos h) (betaOf_lt_one hh)]
    unfold avgOuter
    simp only [halflifeAverage_eq]
  unfold genEwmaCov
  rw [decay_fin hh.ne' none, hgen]
  dsimp only
  rw [if_neg (by omega)]
  have hlast : ((List.range (T + 1)).map fun k => (tm k, finRow (avgOuter h x k))).getLast?
      = some (tm T, finRow (avgOuter h x T)) := by
    rw [List.range_succ, List.map_append, List.map_cons, List.map_nil, List.getLast?_concat]
  rw [hlast]
  dsimp only
  have hfil : (((List.range (T + 1)).map fun k => (tm k, finRow (avgOuter h x k))).filter
      fun p => !(p.2.all Scalar.isNaN)) = finFrame (T + 1) tm (avgOuter h x) := by
    rw [List.filter_eq_self.mpr]
    · rfl
    · intro p hp
      rw [List.mem_map] at hp
      obtain ⟨k, -, rfl⟩ := hp
      rw [all_isNaN_finRow]
      rfl
  rw [hfil, List.length_map, List.length_range, Nat.add_sub_cancel]

/-- **C138.** The generative mode on the rows `x 0, ..., x T`: the estimate of every row is the half-life weighted average of the
outer products up to it, and sample number `i` is drawn from the normal distribution whose covariance is the half-life weighted
average of the outer products of ALL rows, followed by the samples `0, ..., i-1`, each counted as one more row. -/
theorem C138_samples [Nonempty ι] {sample : ℕ → Arr (ι × ι) XR → Except Err (Arr ι XR)} {draw} (hd : Draws sample draw) {h : ℝ}
    (hh : 0 < h) {m : Int} (hm : m ≤ 1) (T : ℕ) (tm : ℕ → τ) (x : ℕ → ι → ℝ) (N : ℕ) :
    ∃ z : ℕ → ι → ℝ, (∀ s ≤ T, z s = x s) ∧ (∀ i, z (T + 1 + i) = draw i (avgOuter h z (T + i))) ∧
      genEwmaCov sample (finFrame (T + 1) tm x) (fin h) m N none
        = ⟨finFrame (T + 1) tm (avgOuter h x), (List.range N).map fun i => (i, finRow (z (T + 1 + i))), none⟩ := by
  obtain ⟨z, hz1, hz2⟩ := exists_rec (T + 1) x (fun i z => draw i (avgOuter h z (T + i)))
    (fun i z z' H => by rw [avgOuter_congr fun s hs => H s (by omega)])
  refine ⟨z, fun s hs => hz1 s (by omega), hz2, ?_⟩
  rw [gen_eq sample hh hm, avgOuter_congr (t := T) (z := x) (z' := z) fun s hs => (hz1 s (by omega)).symm]
  have := loop_none hd hh hz2 N 0
  rw [Nat.add_zero] at this
  rw [Int.toNat_natCast, this, List.range_eq_range']
  simp only [hz2]

/-- **C138.** With `genarative_data` the rows given take the place of the samples in the averages: sample `i` is drawn from the average over
the data and the rows `0, ..., i-1` given, it depends on no other sample. If more samples are asked for than rows are given, the
generator raises `IndexError` after as many samples as there are rows. -/
theorem C138_given [Nonempty ι] {sample : ℕ → Arr (ι × ι) XR → Except Err (Arr ι XR)} {draw} (hd : Draws sample draw) {h : ℝ}
    (hh : 0 < h) {m : Int} (hm : m ≤ 1) (T : ℕ) (tm : ℕ → τ) (z : ℕ → ι → ℝ) (N G : ℕ) :
    genEwmaCov sample (finFrame (T + 1) tm z) (fin h) m N (some ((List.range G).map fun i => finRow (z (T + 1 + i))))
      = ⟨finFrame (T + 1) tm (avgOuter h z),
        (List.range (min N G)).map fun i => (i, finRow (draw i (avgOuter h z (T + i)))),
        if N ≤ G then none else some .indexError⟩ := by
  rw [gen_eq sample hh hm]
  have := loop_some hd hh (T := T) (z := z) (g := fun i => z (T + 1 + i)) (G := G) (fun i _ => rfl) N 0 (Nat.zero_le _)
  simp only [Nat.add_zero, Nat.zero_add, Nat.sub_zero] at this
  rw [Int.toNat_natCast, this, List.range_eq_range']

/-- **C138.** No table of two or more required periods works: with `min_periods ≥ 2` the generator raises `ValueError` before it yields
anything, an empty table raises `IndexError`, a half-life of zero `TypeError`; a negative number of samples yields none. -/
theorem C138_errors [Nonempty ι] (sample : ℕ → Arr (ι × ι) XR → Except Err (Arr ι XR)) {h : ℝ} (hh : 0 < h) :
    (∀ (m : Int), 2 ≤ m → ∀ (T : ℕ) (tm : ℕ → τ) (x : ℕ → ι → ℝ) nS g,
      genEwmaCov sample (finFrame (T + 1) tm x) (fin h) m nS g = ⟨[], [], some .valueError⟩) ∧
    (∀ m nS g, genEwmaCov sample ([] : Frame τ ι XR) (fin h) m nS g = ⟨[], [], some .indexError⟩) ∧
    (∀ (data : Frame τ ι XR) m nS g, genEwmaCov sample data (fin 0) m nS g = ⟨[], [], some .typeError⟩) ∧
    (∀ (m : Int), m ≤ 1 → ∀ (T : ℕ) (tm : ℕ → τ) (x : ℕ → ι → ℝ) (nS : Int) g, nS ≤ 0 →
      (genEwmaCov sample (finFrame (T + 1) tm x) (fin h) m nS g).samples = [] ∧
      (genEwmaCov sample (finFrame (T + 1) tm x) (fin h) m nS g).err = none) := by
  refine ⟨fun m hm T tm x nS g => ?_, fun m nS g => ?_, fun data m nS g => ?_, fun m hm T tm x nS g hn => ?_⟩
  · unfold genEwmaCov
    have hgen : ∃ items, general (finFrame (T + 1) tm x) (some (fin h)) none outer m none = .ok items := by
      unfold finFrame finRows
      rw [general_range (decay_fin hh.ne' none) _ _ _ _ _ (by omega)]
      exact ⟨_, rfl⟩
    obtain ⟨items, hi⟩ := hgen
    rw [decay_fin hh.ne' none, hi]
    dsimp only
    rw [if_pos (by omega)]
  · unfold genEwmaCov general
    rw [decay_fin hh.ne' none]
  · have : decay (some (fin 0)) none = (.error .typeError : Except Err XR) := by
      unfold decay
      have : Scalar.truthy (some (fin 0)) = none := by simp [Scalar.truthy, Scalar.isZero, XR.isZero]
      rw [this]
    unfold genEwmaCov
    rw [this]
  · rw [gen_eq sample hh hm, Int.toNat_of_nonpos hn]
    exact ⟨rfl, rfl⟩

open Matrix in
/-- **C138.** The covariance every sample is drawn from is positive semidefinite, whatever the rows and the samples. -/
theorem C138_posSemidef {n : ℕ} (h : ℝ) (z : ℕ → Fin n → ℝ) (t : ℕ) :
    (Matrix.of fun i j => avgOuter h z t (i, j) : Mat n).PosSemidef :=
  avg_posSemidef (A := fun s => Matrix.vecMulVec (z s) (z s)) (fun s => by
    have := Matrix.posSemidef_vecMulVec_self_star (z s)
    simpa using this) t

/-- A table of two rows of one asset and a sampler that returns the variance it is given: the first sample is the weighted average of
the two squares. -/
example : ∃ s : ℝ, (genEwmaCov (fun _ S => .ok (Arr.ofFn fun _ : Fin 1 => S (0, 0)))
      (finFrame 2 (fun t : ℕ => t) fun t _ => if t = 0 then 1 else 3) (fin 1) 0 2 none).samples.head?
        = some (0, finRow fun _ => s) ∧ s = 19 / 3 := by
  have hd : Draws (fun _ S => .ok (Arr.ofFn fun _ : Fin 1 => S (0, 0))) (fun _ A _ => A (0, 0)) := by
    intro i A
    refine congrArg Except.ok ?_
    ext j
    simp only [finRow, Arr.get_ofFn]
  obtain ⟨z, h1, h2, h3⟩ := C138_samples hd one_pos (by norm_num : (0 : Int) ≤ 1) 1 (fun t : ℕ => t)
    (fun t _ => if t = 0 then 1 else 3) 2
  refine ⟨z 2 0, ?_, ?_⟩
  · erw [h3]
    have : z 2 = fun _ => z 2 0 := by funext i; rw [Subsingleton.elim i 0]
    change some (0, finRow (z 2)) = _
    rw [← this]
  · have h20 := h2 0
    change z 2 = _ at h20
    rw [h20]
    simp [avgOuter, halflifeAverage, Finset.sum_range_succ, h1]
    norm_num

/-! ### C139 -/

variable {α : Type} [Scalar α]

private theorem sampling_iff (fit : Frame τ ι α → Except Err (Arr (ι × ι) α))
    (sample : ℕ → Arr (ι × ι) α → Except Err (Arr ι α)) (test : List τ) (F : Frame τ ι α) : ∀ (k i : ℕ) (ext : Frame τ ι α),
    samplingLoop fit sample test i k ext = .ok F ↔
      (k = 0 ∨ i + k ≤ test.length) ∧ ∃ rows : List (Arr ι α), rows.length = k ∧
        F = ext ++ List.zip ((test.drop i).take k) rows ∧
        ∀ j (hj : j < rows.length), ∃ cov, fit (ext ++ List.zip ((test.drop i).take j) (rows.take j)) = .ok cov ∧
          sample (i + j) cov = .ok rows[j] := by
  intro k
  induction k with
  | zero =>
    intro i ext
    rw [samplingLoop]
    constructor
    · intro h
      cases h
      exact ⟨Or.inl rfl, [], rfl, by simp, fun j hj => absurd hj (by simp)⟩
    · rintro ⟨-, rows, -, rfl, -⟩
      simp
  | succ k ih =>
    intro i ext
    rw [samplingLoop, bind_ok_iff]
    constructor
    · rintro ⟨cov, hc, h⟩
      obtain ⟨s, hs, h⟩ := (bind_ok_iff _ _ _).mp h
      cases ht : test[i]? with
      | none => rw [ht] at h; cases h
      | some t =>
        rw [ht] at h
        dsimp only at h
        obtain ⟨hlt, hget⟩ := List.getElem?_eq_some_iff.mp ht
        obtain ⟨hle, rows, hlen, hF, hrows⟩ := (ih _ _).mp h
        have hdrop : test.drop i = t :: test.drop (i + 1) := by
          rw [List.drop_eq_getElem_cons hlt, hget]
        refine ⟨Or.inr (by omega), s :: rows, by simp [hlen], ?_, ?_⟩
        · rw [hF, hdrop]
          simp
        · intro j hj
          cases j with
          | zero => exact ⟨cov, by simpa using hc, by simpa using hs⟩
          | succ j =>
            obtain ⟨c, h1, h2⟩ := hrows j (by simpa using hj)
            refine ⟨c, ?_, ?_⟩
            · rw [hdrop]
              simpa using h1
            · rw [show i + (j + 1) = i + 1 + j by omega]
              simpa using h2
    · rintro ⟨hle, rows, hlen, hF, hrows⟩
      have hle : i + (k + 1) ≤ test.length := hle.resolve_left (by omega)
      obtain ⟨s, rows', rfl⟩ : ∃ s rows', rows = s :: rows' := by
        cases rows with
        | nil => simp at hlen
        | cons s rows' => exact ⟨s, rows', rfl⟩
      have hlt : i < test.length := by omega
      have hdrop : test.drop i = test[i] :: test.drop (i + 1) := List.drop_eq_getElem_cons hlt
      have hsome : test[i]? = some test[i] := List.getElem?_eq_getElem hlt
      generalize test[i] = t at hdrop hsome
      obtain ⟨cov, h1, h2⟩ := hrows 0 (by simp)
      refine ⟨cov, by simpa using h1, (bind_ok_iff _ _ _).mpr ⟨s, by simpa using h2, ?_⟩⟩
      rw [hsome]
      dsimp only
      refine (ih _ _).mpr ⟨Or.inr (by omega), rows', by simpa using hlen, ?_, ?_⟩
      · rw [hF, hdrop]
        simp
      · intro j hj
        obtain ⟨c, h3, h4⟩ := hrows (j + 1) (by simpa using hj)
        refine ⟨c, ?_, ?_⟩
        · rw [hdrop] at h3
          simpa using h3
        · rw [show i + 1 + j = i + (j + 1) by omega]
          simpa using h4

/-- **C139.** `run_sampling_experiment`: it returns a table exactly if there are enough test dates and every fit and draw succeeds, and
then the table is the training table, unchanged, followed by the samples, at the first test dates in order; sample `i` is drawn from
the covariance fitted to the training table and the samples before it. -/
theorem C139_experiment (fit : Frame τ ι α → Except Err (Arr (ι × ι) α))
    (sample : ℕ → Arr (ι × ι) α → Except Err (Arr ι α)) (train : Frame τ ι α) (test : List τ) (num : ℕ) (F : Frame τ ι α) :
    runSamplingExperiment fit sample train test num = .ok F ↔
      num ≤ test.length ∧ ∃ rows : List (Arr ι α), rows.length = num ∧ F = train ++ List.zip (test.take num) rows ∧
        ∀ i (hi : i < rows.length), ∃ cov, fit (train ++ List.zip (test.take i) (rows.take i)) = .ok cov ∧
          sample i cov = .ok rows[i] := by
  unfold runSamplingExperiment
  rw [sampling_iff]
  simp only [Nat.zero_add, List.drop_zero]
  constructor
  · rintro ⟨h, rows, hl, h1, h2⟩
    exact ⟨by omega, rows, hl, h1, h2⟩
  · rintro ⟨h, h'⟩
    exact ⟨Or.inr h, h'⟩

/-- The experiment runs, e.g. with a fit that always returns the covariance of the last row. -/
example : runSamplingExperiment (ι := Fin 1) (fun F => .ok ((F.getLast?.map fun p => outer p.2).getD (finRow fun _ => 0)))
    (fun i _ => .ok (finRow fun _ => (i : ℝ))) [(5, finRow fun _ => 1)] [7, 8, 9] 2
    = .ok [(5, finRow fun _ => 1), (7, finRow fun _ => 0), (8, finRow fun _ => 1)] := by
  rw [C139_experiment]
  refine ⟨by simp, [finRow fun _ => 0, finRow fun _ => 1], rfl, rfl, fun i hi => ?_⟩
  have : i < 2 := by simpa using hi
  interval_cases i
  · exact ⟨_, rfl, by simp⟩
  · exact ⟨_, rfl, by simp⟩

end CovPred
