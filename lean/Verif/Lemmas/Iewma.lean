import Verif.Lemmas.General
import Verif.Spec.Iewma
import Mathlib.Data.List.Basic

/-
`iteratedEwma` on finite data, reduced to a computation with real numbers.
-/
namespace CovPred
open XR Classical

/-! ### the winsorised variance recursion over the reals -/

theorem newWeight_pos {b : ℝ} (h0 : 0 < b) (h1 : b < 1) (n : ℕ) : 0 < newWeight b n :=
  div_pos (by linarith) (one_sub_pow_pos h0 h1 n)

theorem newWeight_lt_one {b : ℝ} (h0 : 0 < b) (h1 : b < 1) (n : ℕ) : newWeight b (n + 1) < 1 := by
  unfold newWeight
  rw [div_lt_one (one_sub_pow_pos h0 h1 _)]
  have : b ^ (n + 1 + 1) < b := by
    calc b ^ (n + 1 + 1) = b ^ (n + 1) * b := pow_succ _ _
      _ < 1 * b := by
        apply mul_lt_mul_of_pos_right _ h0
        exact pow_lt_one₀ h0.le h1 (by omega)
      _ = b := one_mul b
  linarith

theorem varSeq_succ (b : ℝ) (mv : Int) (clip : Option ℝ) (q : ℕ → ℝ) (n : ℕ) :
    varSeq b mv clip q (n + 1) = (1 - newWeight b (n + 1)) * varSeq b mv clip q n +
      newWeight b (n + 1) * clippedQ mv clip (n + 1) (q (n + 1)) (varSeq b mv clip q n) := by
  simp only [varSeq, newWeight]
  ring

theorem clippedQ_nonneg {mv : Int} {clip : Option ℝ} {n : ℕ} {q V : ℝ} (hq : 0 ≤ q) (hV : 0 ≤ V) :
    0 ≤ clippedQ mv clip n q V := by
  unfold clippedQ
  split
  · split
    · exact le_min hq (by positivity)
    · exact hq
  · exact hq

theorem varSeq_nonneg {b : ℝ} (h0 : 0 < b) (h1 : b < 1) (mv : Int) (clip : Option ℝ) {q : ℕ → ℝ}
    (hq : ∀ k, 0 ≤ q k) (n : ℕ) : 0 ≤ varSeq b mv clip q n := by
  induction n with
  | zero => exact hq 0
  | succ n ih =>
    rw [varSeq_succ]
    have := newWeight_pos h0 h1 (n + 1)
    have := newWeight_lt_one h0 h1 n
    have := clippedQ_nonneg (mv := mv) (clip := clip) (n := n + 1) (hq (n + 1)) ih
    apply add_nonneg <;> apply mul_nonneg <;> linarith

theorem varSeq_congr {b : ℝ} {mv : Int} {clip : Option ℝ} {q q' : ℕ → ℝ} {n : ℕ} (h : ∀ k ≤ n, q k = q' k) :
    varSeq b mv clip q n = varSeq b mv clip q' n := by
  induction n with
  | zero => exact h 0 le_rfl
  | succ n ih => simp only [varSeq]; rw [ih (fun k hk => h k (by omega)), h (n + 1) le_rfl]

theorem varSeq_none {b : ℝ} (h0 : 0 < b) (h1 : b < 1) (mv : Int) (q : ℕ → ℝ) (n : ℕ) :
    varSeq b mv none q n = emaAvg b q n := by
  induction n with
  | zero => simp [varSeq, emaAvg]
  | succ n ih => simp only [varSeq, clippedQ, ih]; exact emaAvg_succ h0 h1 q n

/-- the newest observation counts unless clipped away -/
theorem varSeq_none_zero {b : ℝ} (h0 : 0 < b) (h1 : b < 1) (mv : Int) {q : ℕ → ℝ}
    (hq : ∀ k, 0 ≤ q k) (n : ℕ) (hz : varSeq b mv none q n = 0) : q n = 0 := by
  cases n with
  | zero => exact hz
  | succ n =>
    rw [varSeq_succ] at hz
    have h3 := newWeight_pos h0 h1 (n + 1)
    have h4 := newWeight_lt_one h0 h1 n
    have h5 := varSeq_nonneg h0 h1 mv none hq n
    have h6 := hq (n + 1)
    simp only [clippedQ] at hz
    have h7 : 0 ≤ (1 - newWeight b (n + 1)) * varSeq b mv none q n := mul_nonneg (by linarith) h5
    have h8 : 0 ≤ newWeight b (n + 1) * q (n + 1) := mul_nonneg h3.le h6
    have h9 : newWeight b (n + 1) * q (n + 1) = 0 := by linarith
    rcases mul_eq_zero.mp h9 with h | h
    · exact absurd h h3.ne'
    · exact h

/-! ### from `XR` to the reals -/

theorem fin_maximum (a b : ℝ) : Scalar.maximum (fin a) (fin b) = fin (max a b) := by
  unfold Scalar.maximum
  simp only [isNaN_fin, Bool.false_eq_true, if_false, leb_fin]
  split
  · next h => rw [max_eq_right h]
  · next h => rw [max_eq_left (le_of_lt (not_le.mp h))]
theorem fin_minimum (a b : ℝ) : Scalar.minimum (fin a) (fin b) = fin (min a b) := by
  unfold Scalar.minimum
  simp only [isNaN_fin, Bool.false_eq_true, if_false, leb_fin]
  split
  · next h => rw [min_eq_left h]
  · next h => rw [min_eq_right (le_of_lt (not_le.mp h))]

theorem truthy_fin {c : ℝ} (h : c ≠ 0) : Scalar.truthy (some (fin c)) = some (fin c) := by
  simp only [Scalar.truthy]
  rw [if_neg]; rw [isZero_fin]; exact h

theorem truthy_map {clip : Option ℝ} (hc : ∀ c ∈ clip, c ≠ 0) :
    Scalar.truthy (clip.map fin) = clip.map fin := by
  cases clip with
  | none => rfl
  | some c => exact truthy_fin (hc c rfl)

theorem ewSeq_var {κ : Type} [Ix κ] {b : ℝ} (h0 : 0 < b) (h1 : b < 1) (mv : Int) {clip : Option ℝ}
    (hc : ∀ c ∈ clip, c ≠ 0) {q : ℕ → κ → ℝ} (hq : ∀ k i, 0 ≤ q k i) (n : ℕ) :
    ewSeq (fin b) mv ((clip.map fin).map fun c => Scalar.npow c 2) (fun k => finRow (q k)) n =
      finRow fun i => varSeq b mv clip (fun k => q k i) n := by
  induction n with
  | zero => rfl
  | succ n ih =>
    simp only [ewSeq]
    rw [ih]
    ext i
    have hd := (one_sub_pow_pos h0 h1 (n + 1)).ne'
    have hV := varSeq_nonneg h0 h1 mv clip (fun k => hq k i) n
    cases clip with
    | none =>
      simp only [ewmaUpdate, Option.map_none, Scalar.truthy]
      simp only [finRow, Arr.get_ofFn, one_def, fin_sub, fin_mul, fin_npow]
      rw [fin_div hd, fin_add]; rfl
    | some c =>
      have hc0 := hc c rfl
      have ht : Scalar.truthy (some (fin (c ^ 2))) = some (fin (c ^ 2)) := truthy_fin (pow_ne_zero 2 hc0)
      simp only [ewmaUpdate, Option.map_some, fin_npow, ht]
      simp only [varSeq, clippedQ]
      by_cases hm : ((n + 1 : ℕ) : Int) ≥ mv + 1
      · have hm' : mv + 1 ≤ ((n + 1 : ℕ) : Int) := hm
        rw [if_pos hm]
        simp only [if_pos hm', finRow, Arr.get_ofFn, one_def, fin_sub, fin_mul, fin_neg, Scalar.npClip,
          fin_maximum, fin_minimum]
        rw [fin_div hd, fin_add]
        have : max (q (n + 1) i) (-c ^ 2 * varSeq b mv (some c) (fun k => q k i) n) = q (n + 1) i := by
          apply max_eq_left
          have := hq (n + 1) i
          have : 0 ≤ c ^ 2 * varSeq b mv (some c) (fun k => q k i) n := by positivity
          linarith
        rw [this]
      · have hm' : ¬ (mv + 1 ≤ ((n + 1 : ℕ) : Int)) := hm
        rw [if_neg hm]
        simp only [if_neg hm', finRow, Arr.get_ofFn, one_def, fin_sub, fin_mul]
        rw [fin_div hd, fin_add]

/-- `volatility` on finite data -/
theorem volatility_fin {τ ι : Type} [Ix ι] [Nonempty ι] {h : ℝ} (hh : 0 < h) (mv : Int) {clip : Option ℝ}
    (hc : ∀ c ∈ clip, c ≠ 0) {T : ℕ} (hT : 0 < T) (tm : ℕ → τ) (x : ℕ → ι → ℝ) :
    volatility (finFrame T tm x) (fin h) mv (clip.map fin) =
      .ok (finRows (rowsFrom mv T) tm fun t i =>
        Real.sqrt (varSeq (betaOf h) mv clip (fun k => x k i ^ 2) t)) := by
  have h0 := betaOf_pos h
  have h1 := betaOf_lt_one hh
  unfold volatility variance ewmaMean
  have hsq : Frame.mapVals (fun x => Scalar.npow x 2) (finFrame T tm x) =
      (List.range T).map fun k => (tm k, finRow fun i => x k i ^ 2) := by
    unfold Frame.mapVals finFrame finRows
    rw [List.map_map]
    apply List.map_congr_left
    intro k _
    simp only [Function.comp]
    congr 1
    ext i
    simp [finRow, fin_npow]
  dsimp only
  rw [hsq, general_range (decay_fin hh.ne' none) _ _ _ _ _ hT, truthy_map hc]
  simp only [ewSeq_var h0 h1 mv hc (fun k i => sq_nonneg (x k i)), Except.map]
  rw [filter_mask]
  congr 1
  unfold Frame.mapVals finRows
  rw [List.map_map]
  apply List.map_congr_left
  intro k _
  simp only [Function.comp]
  congr 1
  ext i
  simp only [finRow, Arr.get_map, Arr.get_ofFn]
  rw [fin_sqrt (varSeq_nonneg h0 h1 mv clip (fun k => sq_nonneg (x k i)) k)]

/-! ### lookups -/

theorem lookup_map {τ A : Type} [DecidableEq τ] (tm : ℕ → τ) (f : ℕ → A) (l : List ℕ) (t : ℕ)
    (hd : ∀ k ∈ l, tm k = tm t → k = t) :
    (l.map fun k => (tm k, f k)).lookup (tm t) = if t ∈ l then some (f t) else none := by
  induction l with
  | nil => simp
  | cons k l ih =>
    rw [List.map_cons, List.lookup_cons]
    by_cases hk : tm k = tm t
    · have := hd k (by simp) hk
      subst this
      simp
    · have hk' : (tm t == tm k) = false := by simp [Ne.symm hk]
      simp only [hk']
      rw [ih (fun j hj => hd j (by simp [hj]))]
      have : t ≠ k := fun h => hk (by rw [h])
      simp [this]

theorem loc_finRows {τ ι : Type} [DecidableEq τ] [Ix ι] {T : ℕ} {tm : ℕ → τ} (hd : DistinctTimes T tm)
    (y : ℕ → ι → ℝ) {l : List ℕ} (hl : ∀ k ∈ l, k < T) {t : ℕ} (ht : t < T) :
    (finRows l tm y).loc? (tm t) = if t ∈ l then some (finRow (y t)) else none := by
  unfold Frame.loc? finRows
  exact lookup_map tm _ l t (fun k hk h => hd k t (hl k hk) ht h)

theorem rowsFrom_lt {mv : Int} {T k : ℕ} (h : k ∈ rowsFrom mv T) : k < T := by
  unfold rowsFrom at h
  exact List.mem_range.mp (List.mem_filter.mp h).1

theorem mem_rowsFrom {mv : Int} {T k : ℕ} : k ∈ rowsFrom mv T ↔ k < T ∧ mv - 1 ≤ (k : Int) := by
  simp [rowsFrom]

theorem rowsFrom_zero (T : ℕ) : rowsFrom 0 T = List.range T := by
  unfold rowsFrom
  rw [List.filter_eq_self]
  intro a _
  simp

/-! ### the adjusted returns -/

theorem fin_pdClip {c : ℝ} (x : ℝ) : pdClip (fin c) (fin x) = fin (max (-|c|) (min x |c|)) := by
  unfold pdClip
  simp only [isNaN_fin, Bool.false_eq_true, if_false, fin_neg, leb_fin]
  have key : ∀ a : ℝ, 0 ≤ a → (if x ≤ a then (if -a ≤ x then fin x else fin (-a)) else fin a) =
      fin (max (-a) (min x a)) := by
    intro a ha
    by_cases h1 : x ≤ a
    · rw [if_pos h1, min_eq_left h1]
      by_cases h2 : -a ≤ x
      · rw [if_pos h2, max_eq_right h2]
      · rw [if_neg h2, max_eq_left (le_of_lt (not_le.mp h2))]
    · rw [if_neg h1, min_eq_right (le_of_lt (not_le.mp h1)), max_eq_right (by linarith)]
  by_cases hc : 0 ≤ c
  · have h : -c ≤ c := by linarith
    simp only [h, if_true, abs_of_nonneg hc]
    simpa only [leb_fin] using key c hc
  · have hc' := not_le.mp hc
    have h : ¬ (-c ≤ c) := by linarith
    simp only [h, if_false, abs_of_neg hc', neg_neg]
    have := key (-c) (by linarith)
    simpa only [leb_fin, neg_neg] using this

theorem pinf_pdClip (c : ℝ) : pdClip (fin c) pinf = fin |c| := by
  unfold pdClip
  have h1 : ∀ a : ℝ, Scalar.leb (pinf : XR) (fin a) = false := fun a => rfl
  by_cases hc : 0 ≤ c
  · have h : -c ≤ c := by linarith
    simp [fin_neg, leb_fin, h, h1, abs_of_nonneg hc]
  · have h : ¬ (-c ≤ c) := by have := not_le.mp hc; linarith
    simp [fin_neg, leb_fin, h, h1, abs_of_neg (not_le.mp hc)]

theorem ninf_pdClip (c : ℝ) : pdClip (fin c) ninf = fin (-|c|) := by
  unfold pdClip
  have h1 : ∀ a : ℝ, Scalar.leb (fin a) (ninf : XR) = false := fun a => rfl
  have h2 : ∀ a : ℝ, Scalar.leb (ninf : XR) (fin a) = true := fun a => rfl
  by_cases hc : 0 ≤ c
  · have h : -c ≤ c := by linarith
    simp [fin_neg, leb_fin, h, h1, h2, abs_of_nonneg hc]
  · have h : ¬ (-c ≤ c) := by have := not_le.mp hc; linarith
    simp [fin_neg, leb_fin, h, h1, h2, abs_of_neg (not_le.mp hc)]

theorem nan_pdClip (c : XR) : pdClip c nan = nan := by
  unfold pdClip; simp

/-- apply `clip_at` if any -/
noncomputable def optClip (clip : Option ℝ) (x : XR) : XR :=
  match clip with
  | none => x
  | some c => pdClip (fin c) x

theorem clip_eq {τ ι : Type} [Ix ι] {clp : Option ℝ} (hc : ∀ c ∈ clp, c ≠ 0) (f : Frame τ ι XR) :
    clip f (clp.map fin) = (f.mapVals (optClip clp)).dropnaAll := by
  unfold clip
  rw [truthy_map hc]
  cases clp with
  | none =>
    simp only [Option.map_none]
    congr 1
    unfold Frame.mapVals
    conv_lhs => rw [← List.map_id f]
    apply List.map_congr_left
    intro p _
    obtain ⟨t, r⟩ := p
    simp only [id]
    congr 1
    ext i
    simp [optClip]
  | some c => rfl

/-- clipping preserves and reflects `nan` -/
theorem isNaN_optClip (clp : Option ℝ) (x : XR) : Scalar.isNaN (optClip clp x) = Scalar.isNaN x := by
  cases clp with
  | none => rfl
  | some c =>
    cases x with
    | fin a => simp [optClip, fin_pdClip]
    | pinf => simp [optClip, pinf_pdClip]
    | ninf => simp [optClip, ninf_pdClip]
    | nan => simp [optClip, nan_pdClip]

/-- when an adjusted return is `nan` -/
theorem isNaN_div_fin (x s : ℝ) : Scalar.isNaN (fin x / fin s) = true ↔ s = 0 ∧ x = 0 := by
  rw [isNaN_iff]
  by_cases hs : s = 0
  · subst hs
    rw [div_eq, inv_zero, fin_mul_pinf]
    rcases lt_trichotomy x 0 with h | h | h
    · simp [infSign_neg h, h.ne]
    · simp [h]
    · simp [infSign_pos h, h.ne']
  · rw [fin_div hs]
    simp [hs]

theorem fill_optClip_div {clp : Option ℝ} {x s : ℝ} (h : clp = none → s = 0 → x = 0) :
    (if Scalar.isNaN (optClip clp (fin x / fin s)) then (0 : XR) else optClip clp (fin x / fin s)) =
      fin (adjReal clp x s) := by
  rw [isNaN_optClip]
  by_cases hs : s = 0
  · subst hs
    rw [div_eq, inv_zero, fin_mul_pinf]
    cases clp with
    | none =>
      have := h rfl rfl
      subst this
      simp [adjReal, zero_def]
    | some c =>
      simp only [adjReal, optClip, if_true]
      rcases lt_trichotomy x 0 with h | h | h
      · rw [infSign_neg h, ninf_pdClip]; simp [not_lt.mpr h.le, h]
      · subst h; simp [zero_def]
      · rw [infSign_pos h, pinf_pdClip]; simp [h]
  · rw [fin_div hs]
    cases clp with
    | none => simp [optClip, adjReal]
    | some c => simp [optClip, adjReal, fin_pdClip, hs]

/-- the rows that survive `clip(returns / vola)` -/
noncomputable def liveRows (mv : Int) (T : ℕ) {ι : Type} (x s : ℕ → ι → ℝ) : List ℕ :=
  (List.range T).filter fun t => decide (mv - 1 ≤ (t : Int) ∧ ∃ i, ¬ (s t i = 0 ∧ x t i = 0))

theorem map_filter_rows {τ ι : Type} [Ix ι] (tm : ℕ → τ) (R : ℕ → Arr ι XR) (A : ℕ → ι → ℝ) (live : ℕ → Bool)
    (l : List ℕ) (hn : ∀ t ∈ l, live t = false → (R t).all Scalar.isNaN = true)
    (hy : ∀ t ∈ l, live t = true → (R t).all Scalar.isNaN = false ∧
      (R t).map (fun x => if Scalar.isNaN x then (0 : XR) else x) = finRow (A t)) :
    Frame.fillna0 (Frame.dropnaAll (l.map fun t => (tm t, R t))) = finRows (l.filter live) tm A := by
  induction l with
  | nil => rfl
  | cons k l ih =>
    have ih' := ih (fun t ht => hn t (by simp [ht])) (fun t ht => hy t (by simp [ht]))
    unfold Frame.dropnaAll Frame.fillna0 Frame.mapVals finRows at *
    rw [List.map_cons, List.filter_cons, List.filter_cons]
    by_cases hk : live k = true
    · obtain ⟨h1, h2⟩ := hy k (by simp) hk
      simp only [h1, Bool.not_false, if_true, hk, List.map_cons, h2]
      rw [ih']
    · have hk' : live k = false := by simpa using hk
      have h1 := hn k (by simp) hk'
      simp only [h1, Bool.not_true, hk', Bool.false_eq_true, if_false]
      exact ih'

theorem adj_rows {τ ι : Type} [DecidableEq τ] [Ix ι] (mv : Int) (clp : Option ℝ) {T : ℕ}
    {tm : ℕ → τ} (hd : DistinctTimes T tm) (x s : ℕ → ι → ℝ) :
    Frame.mapVals (optClip clp)
      (Frame.alignWith (· / ·) (finFrame T tm x) (finRows (rowsFrom mv T) tm s)) =
      (List.range T).map fun t => (tm t, if mv - 1 ≤ (t : Int) then
        Arr.ofFn fun i => optClip clp (fin (x t i) / fin (s t i)) else Arr.ofFn fun _ => nan) := by
  have hf : finFrame T tm x = (List.range T).map fun t => (tm t, finRow (x t)) := rfl
  unfold Frame.mapVals Frame.alignWith
  rw [hf, List.map_map, List.map_map]
  apply List.map_congr_left
  intro t ht
  have ht := List.mem_range.mp ht
  simp only [Function.comp]
  rw [loc_finRows hd s (fun k hk => rowsFrom_lt hk) ht]
  congr 1
  by_cases h : mv - 1 ≤ (t : Int)
  · rw [if_pos (mem_rowsFrom.mpr ⟨ht, h⟩), if_pos h]
    ext i
    simp [finRow]
  · rw [if_neg (fun hm => h (mem_rowsFrom.mp hm).2), if_neg h]
    ext i
    have : Scalar.isNaN (optClip clp nan) = true := by rw [isNaN_optClip]; rfl
    simpa [nan_def] using (isNaN_iff _).mp this

theorem adj_fin {τ ι : Type} [DecidableEq τ] [Ix ι] (mv : Int) {clp : Option ℝ} (hc : ∀ c ∈ clp, c ≠ 0) {T : ℕ}
    {tm : ℕ → τ} (hd : DistinctTimes T tm) (x s : ℕ → ι → ℝ)
    (hz : clp = none → ∀ t i, s t i = 0 → x t i = 0) :
    (clip (Frame.alignWith (· / ·) (finFrame T tm x) (finRows (rowsFrom mv T) tm s)) (clp.map fin)).fillna0 =
      finRows (liveRows mv T x s) tm fun t i => adjReal clp (x t i) (s t i) := by
  rw [clip_eq hc]
  rw [adj_rows mv clp hd x s]
  apply map_filter_rows
  · intro t _ hl
    have hl := of_decide_eq_false hl
    rw [Arr.all_iff]
    intro i
    by_cases h : mv - 1 ≤ (t : Int)
    · rw [if_pos h, Arr.get_ofFn, isNaN_optClip, isNaN_div_fin]
      by_contra hcon
      exact hl ⟨h, i, hcon⟩
    · rw [if_neg h]; simp
  · intro t _ hl
    obtain ⟨h, i, hi⟩ := of_decide_eq_true hl
    rw [if_pos h]
    constructor
    · rw [Bool.eq_false_iff]
      intro hall
      have := (Arr.all_iff _ _).mp hall i
      rw [Arr.get_ofFn, isNaN_optClip, isNaN_div_fin] at this
      exact hi this
    · ext j
      rw [Arr.get_map, Arr.get_ofFn]
      simp only [finRow, Arr.get_ofFn]
      exact fill_optClip_div (fun hcl => hz hcl t j)

end CovPred
