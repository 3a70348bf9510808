import Verif.Lemmas.VarSeq

/-
Property C189: what the volatility remembers, with and without winsorisation.
-/
set_option linter.unusedSectionVars false
namespace CovPred
open XR

variable {τ ι : Type} [DecidableEq τ] [Ix ι]

theorem clippedQ_mono {mv : Int} {clip : Option ℝ} {n : ℕ} {q q' V V' : ℝ} (hq : q ≤ q') (hV : V ≤ V') :
    clippedQ mv clip n q V ≤ clippedQ mv clip n q' V' := by
  unfold clippedQ
  split
  · split
    · exact min_le_min hq (mul_le_mul_of_nonneg_left hV (sq_nonneg _))
    · exact hq
  · exact hq

theorem clippedQ_smul {mv : Int} {clip : Option ℝ} {n : ℕ} {q V l : ℝ} (hl : 0 ≤ l) :
    clippedQ mv clip n (l * q) (l * V) = l * clippedQ mv clip n q V := by
  unfold clippedQ
  split
  · rename_i c
    split
    · rw [show c ^ 2 * (l * V) = l * (c ^ 2 * V) by ring]
      rcases le_total q (c ^ 2 * V) with h | h
      · rw [min_eq_left h, min_eq_left (mul_le_mul_of_nonneg_left h hl)]
      · rw [min_eq_right h, min_eq_right (mul_le_mul_of_nonneg_left h hl)]
    · rfl
  · rfl

theorem varSeq_mono {b : ℝ} (h0 : 0 < b) (h1 : b < 1) (mv : Int) (clip : Option ℝ) {q q' : ℕ → ℝ} (t : ℕ) (h : ∀ k ≤ t, q k ≤ q' k) :
    varSeq b mv clip q t ≤ varSeq b mv clip q' t := by
  induction t with
  | zero => exact h 0 le_rfl
  | succ t ih =>
    have hi := ih fun k hk => h k (by omega)
    have hw := newWeight_pos h0 h1 (t + 1)
    have hw1 := newWeight_lt_one h0 h1 t
    rw [varSeq_succ, varSeq_succ]
    have h2 := mul_le_mul_of_nonneg_left hi (show 0 ≤ 1 - newWeight b (t + 1) by linarith)
    have h3 := mul_le_mul_of_nonneg_left (clippedQ_mono (mv := mv) (clip := clip) (n := t + 1) (h (t + 1) le_rfl) hi) hw.le
    linarith

/-- scaling the past by at least one scales the future by at most that -/
theorem varSeq_ratio {b : ℝ} (h0 : 0 < b) (h1 : b < 1) (mv : Int) (clip : Option ℝ) {q q' : ℕ → ℝ} (hq : ∀ k, 0 ≤ q k) {l : ℝ} (hl : 1 ≤ l) {s : ℕ}
    (hs : varSeq b mv clip q' s ≤ l * varSeq b mv clip q s) (d : ℕ) (h : ∀ k, s < k → k ≤ s + d → q' k = q k) :
    varSeq b mv clip q' (s + d) ≤ l * varSeq b mv clip q (s + d) := by
  induction d with
  | zero => exact hs
  | succ d ih =>
    have hi := ih fun k h1 h2 => h k h1 (by omega)
    have hw := newWeight_pos h0 h1 (s + d + 1)
    have hw1 := newWeight_lt_one h0 h1 (s + d)
    rw [← add_assoc, varSeq_succ, varSeq_succ, h (s + d + 1) (by omega) (by omega)]
    have hqq : q (s + d + 1) ≤ l * q (s + d + 1) := le_mul_of_one_le_left (hq _) hl
    have h3 := clippedQ_mono (mv := mv) (clip := clip) (n := s + d + 1) hqq hi
    rw [clippedQ_smul (by linarith)] at h3
    have h4 := mul_le_mul_of_nonneg_left h3 hw.le
    have h5 := mul_le_mul_of_nonneg_left hi (show 0 ≤ 1 - newWeight b (s + d + 1) by linarith)
    linarith

/-- The two runs. -/
theorem two_runs [Nonempty ι] {h : ℝ} (hh : 0 < h) (mp : Int) {clip : Option ℝ} (hc : ∀ c ∈ clip, c ≠ 0) {T : ℕ} (hT : 0 < T) (tm : ℕ → τ)
    (x : ℕ → ι → ℝ) {v : ℕ → ι → ℝ} (hv : volatility (finFrame T tm x) (fin h) mp (clip.map fin) = .ok (finRows (rowsFrom mp T) tm v))
    {t : ℕ} (ht : t < T) (hm : mp - 1 ≤ (t : Int)) (i : ι) : v t i = Real.sqrt (varSeq (betaOf h) mp clip (fun k => x k i ^ 2) t) := by
  rw [volatility_fin hh mp hc hT tm x] at hv
  injection hv with hv
  unfold finRows at hv
  have h1 := List.map_inj_left.1 hv t (mem_rowsFrom.2 ⟨ht, hm⟩)
  have h2 := congrArg (fun p : τ × Arr ι XR => p.2 i) h1
  simp only [finRow, Arr.get_ofFn] at h2
  injection h2 with h2
  exact h2.symm

/-- Larger returns never give smaller volatilities, now or later. -/
theorem C189_monotone [Nonempty ι] {h : ℝ} (hh : 0 < h) (mp : Int) {clip : Option ℝ} (hc : ∀ c ∈ clip, c ≠ 0) {T : ℕ} (hT : 0 < T) (tm : ℕ → τ)
    (x y : ℕ → ι → ℝ) {v w : ℕ → ι → ℝ} (hv : volatility (finFrame T tm x) (fin h) mp (clip.map fin) = .ok (finRows (rowsFrom mp T) tm v))
    (hw : volatility (finFrame T tm y) (fin h) mp (clip.map fin) = .ok (finRows (rowsFrom mp T) tm w))
    {t : ℕ} (ht : t < T) (hm : mp - 1 ≤ (t : Int)) (i : ι) (hxy : ∀ k ≤ t, |x k i| ≤ |y k i|) : v t i ≤ w t i := by
  rw [two_runs hh mp hc hT tm x hv ht hm, two_runs hh mp hc hT tm y hw ht hm]
  exact Real.sqrt_le_sqrt (varSeq_mono (betaOf_pos h) (betaOf_lt_one hh) mp clip t fun k hk => sq_le_sq.2 (hxy k hk))

/-- If two histories agree after row `s`, the ratio of their volatilities never gets further from one than it is at row `s`. -/
theorem C189_memory [Nonempty ι] {h : ℝ} (hh : 0 < h) (mp : Int) {clip : Option ℝ} (hc : ∀ c ∈ clip, c ≠ 0) {T : ℕ} (hT : 0 < T) (tm : ℕ → τ)
    (x y : ℕ → ι → ℝ) {v w : ℕ → ι → ℝ} (hv : volatility (finFrame T tm x) (fin h) mp (clip.map fin) = .ok (finRows (rowsFrom mp T) tm v))
    (hw : volatility (finFrame T tm y) (fin h) mp (clip.map fin) = .ok (finRows (rowsFrom mp T) tm w))
    {s t : ℕ} (hst : s ≤ t) (ht : t < T) (hm : mp - 1 ≤ (s : Int)) (i : ι) (hxy : ∀ k, s < k → k ≤ t → y k i = x k i) {l : ℝ} (hl : 1 ≤ l)
    (hs : w s i ≤ l * v s i) : w t i ≤ l * v t i := by
  rw [two_runs hh mp hc hT tm x hv (by omega) (by omega), two_runs hh mp hc hT tm y hw (by omega) (by omega)] at hs ⊢
  have h0 := betaOf_pos h
  have h1 := betaOf_lt_one hh
  have hn : ∀ (z : ℕ → ι → ℝ) (k : ℕ), 0 ≤ varSeq (betaOf h) mp clip (fun k => z k i ^ 2) k := fun z k =>
    varSeq_nonneg h0 h1 mp clip (fun k => sq_nonneg _) k
  have e : ∀ k, l * Real.sqrt (varSeq (betaOf h) mp clip (fun k => x k i ^ 2) k) = Real.sqrt (l ^ 2 * varSeq (betaOf h) mp clip (fun k => x k i ^ 2) k) :=
    fun k => by rw [Real.sqrt_mul (sq_nonneg l), Real.sqrt_sq (by linarith)]
  rw [e] at hs ⊢
  rw [Real.sqrt_le_sqrt_iff (mul_nonneg (sq_nonneg l) (hn x s))] at hs
  refine Real.sqrt_le_sqrt ?_
  obtain ⟨d, rfl⟩ := Nat.exists_eq_add_of_le hst
  exact varSeq_ratio h0 h1 mp clip (fun k => sq_nonneg _) (one_le_pow₀ hl) hs d fun k h1 h2 => by
    show y k i ^ 2 = x k i ^ 2
    rw [hxy k h1 h2]

/-- Without winsorisation the past fades: the difference of the squared volatilities is halved at least every `h` rows. -/
theorem C189_unclipped [Nonempty ι] {h : ℝ} (hh : 0 < h) (mp : Int) {T : ℕ} (hT : 0 < T) (tm : ℕ → τ)
    (x y : ℕ → ι → ℝ) {v w : ℕ → ι → ℝ} (hv : volatility (finFrame T tm x) (fin h) mp none = .ok (finRows (rowsFrom mp T) tm v))
    (hw : volatility (finFrame T tm y) (fin h) mp none = .ok (finRows (rowsFrom mp T) tm w))
    {s t : ℕ} (hst : s ≤ t) (ht : t < T) (hm : mp - 1 ≤ (s : Int)) (i : ι) (hxy : ∀ k, s < k → k ≤ t → y k i = x k i) :
    |w t i ^ 2 - v t i ^ 2| ≤ (2 : ℝ) ^ (-((t - s : ℕ) : ℝ) / h) * |w s i ^ 2 - v s i ^ 2| := by
  have h0 := betaOf_pos h
  have h1 := betaOf_lt_one hh
  have hc : ∀ c ∈ (none : Option ℝ), c ≠ 0 := by simp
  have hn : ∀ (z : ℕ → ι → ℝ) (k : ℕ), 0 ≤ varSeq (betaOf h) mp none (fun k => z k i ^ 2) k := fun z k =>
    varSeq_nonneg h0 h1 mp none (fun k => sq_nonneg _) k
  rw [two_runs hh mp hc hT tm x hv ht (by omega), two_runs hh mp hc hT tm y hw ht (by omega),
    two_runs hh mp hc hT tm x hv (by omega) hm, two_runs hh mp hc hT tm y hw (by omega) hm, Real.sq_sqrt (hn _ _), Real.sq_sqrt (hn _ _),
    Real.sq_sqrt (hn _ _), Real.sq_sqrt (hn _ _), ← betaOf_pow]
  obtain ⟨d, rfl⟩ := Nat.exists_eq_add_of_le hst
  rw [Nat.add_sub_cancel_left]
  clear hst ht hv hw
  induction d with
  | zero => simp
  | succ d ih =>
    have hi := ih fun k h1 h2 => hxy k h1 (by omega)
    have hw := newWeight_pos h0 h1 (s + d + 1)
    have hw1 := newWeight_lt_one h0 h1 (s + d)
    have hwb : 1 - newWeight (betaOf h) (s + d + 1) ≤ betaOf h := by
      have hp := pow_pos h0 (s + d + 1 + 1)
      have hp1 := pow_lt_one₀ h0.le h1 (show s + d + 1 + 1 ≠ 0 by omega)
      have : 1 - betaOf h ≤ newWeight (betaOf h) (s + d + 1) := by
        unfold newWeight
        rw [le_div_iff₀ (by linarith)]
        nlinarith
      linarith
    rw [← add_assoc, varSeq_succ, varSeq_succ]
    simp only [clippedQ, hxy (s + d + 1) (by omega) (by omega)]
    rw [show ∀ a p q r : ℝ, (1 - a) * p + a * r - ((1 - a) * q + a * r) = (1 - a) * (p - q) by intros; ring, abs_mul,
      abs_of_nonneg (by linarith), pow_succ' (betaOf h), _root_.mul_assoc]
    exact mul_le_mul hwb hi (abs_nonneg _) h0.le

/-! ### winsorisation need not forget -/

/-- a variance that goes up when it is below one and down otherwise -/
noncomputable def seesaw (b c : ℝ) (N : ℕ) : ℕ → ℝ
  | 0 => 1
  | n + 1 => if n < N then 1 else if seesaw b c N n < 1
      then (1 - newWeight b (n + 1)) * seesaw b c N n + newWeight b (n + 1) * (c ^ 2 * seesaw b c N n)
      else (1 - newWeight b (n + 1)) * seesaw b c N n

/-- the squared returns that make it so -/
noncomputable def seesawQ (b c H : ℝ) (N : ℕ) : ℕ → ℝ
  | 0 => 1
  | n + 1 => if n < N then 1 else if seesaw b c N n < 1 then H else 0

theorem seesaw_bounds {b c : ℝ} (h0 : 0 < b) (h1 : b < 1) (hc : 1 < c) (N n : ℕ) : b / (1 + b) ≤ seesaw b c N n ∧ seesaw b c N n ≤ c ^ 2 := by
  have hc2 : 1 < c ^ 2 := by nlinarith
  have hb1 : b / (1 + b) ≤ 1 := by rw [div_le_one (by linarith)]; linarith
  induction n with
  | zero => exact ⟨hb1, hc2.le⟩
  | succ n ih =>
    have hw := newWeight_pos h0 h1 (n + 1)
    have hw1 := newWeight_lt_one h0 h1 n
    have hpos : 0 < seesaw b c N n := lt_of_lt_of_le (by positivity) ih.1
    simp only [seesaw]
    split
    · exact ⟨hb1, hc2.le⟩
    · split
      · rename_i h
        set g := newWeight b (n + 1)
        set V := seesaw b c N n
        have hcV : V ≤ c ^ 2 * V := by nlinarith
        have hcc : c ^ 2 * V ≤ c ^ 2 := by nlinarith
        have h2 := mul_le_mul_of_nonneg_left hcV hw.le
        have h3 := mul_le_mul_of_nonneg_left (show V ≤ c ^ 2 by linarith) (show 0 ≤ 1 - g by linarith)
        have h4 := mul_le_mul_of_nonneg_left hcc hw.le
        exact ⟨by linarith [ih.1], by linarith⟩
      · rename_i h
        have h := not_lt.1 h
        set g := newWeight b (n + 1) with hg
        have hgb : g ≤ 1 / (1 + b) := by
          rw [hg, newWeight, div_le_div_iff₀ (one_sub_pow_pos h0 h1 _) (by linarith)]
          have : b ^ (n + 1 + 1) ≤ b ^ 2 := pow_le_pow_of_le_one h0.le h1.le (by omega)
          nlinarith
        have he : b / (1 + b) = 1 - 1 / (1 + b) := by field_simp; ring
        exact ⟨by rw [he]; nlinarith, by nlinarith [ih.2]⟩

theorem varSeq_seesaw {b c : ℝ} (h0 : 0 < b) (h1 : b < 1) (hc : 1 < c) (mp : Int) {l H : ℝ} (hl : 0 < l) (hH : c ^ 2 * (l * c ^ 2) ≤ H) {q : ℕ → ℝ}
    (hq1 : ∀ k ≤ mp.toNat, q k = l) (hq2 : ∀ k, mp.toNat < k → q k = seesawQ b c H mp.toNat k) (n : ℕ) :
    varSeq b mp (some c) q n = l * seesaw b c mp.toNat n := by
  induction n with
  | zero => simp [varSeq, seesaw, hq1 0 (by omega)]
  | succ n ih =>
    rw [varSeq_succ, ih]
    have hb := seesaw_bounds h0 h1 hc mp.toNat n
    have hpos : 0 < seesaw b c mp.toNat n := lt_of_lt_of_le (by positivity) hb.1
    by_cases h : n < mp.toNat
    · have hs : seesaw b c mp.toNat n = 1 := by
        cases n with
        | zero => rfl
        | succ n => simp only [seesaw]; rw [if_pos (by omega)]
      have hs' : seesaw b c mp.toNat (n + 1) = 1 := by simp only [seesaw]; rw [if_pos h]
      rw [hs, hs', hq1 _ (by omega)]
      simp only [clippedQ]
      rw [if_neg (by omega)]
      ring
    · rw [hq2 _ (by omega)]
      simp only [clippedQ, seesaw, seesawQ]
      rw [if_pos (show mp + 1 ≤ ((n + 1 : ℕ) : Int) by omega), if_neg h, if_neg h]
      by_cases hV : seesaw b c mp.toNat n < 1
      · rw [if_pos hV, if_pos hV, min_eq_right]
        · ring
        · refine le_trans ?_ hH
          have : l * seesaw b c mp.toNat n ≤ l * c ^ 2 := mul_le_mul_of_nonneg_left hb.2 hl.le
          exact mul_le_mul_of_nonneg_left this (sq_nonneg c)
      · rw [if_neg hV, if_neg hV, min_eq_left (by positivity)]
        ring

/-- With winsorisation (`clip_at > 1`) the past need not fade at all: there are two histories of bounded returns that agree after the warm-up such that the
volatilities stay between positive bounds and the second is `l` times the first for ever. -/
theorem C189_clipped_remembers [Nonempty ι] {h : ℝ} (hh : 0 < h) (mp : Int) {c : ℝ} (hc : 1 < c) {l : ℝ} (hl : 0 < l) :
    ∃ (x y : ℕ → ι → ℝ) (M lo hi : ℝ), 0 < lo ∧ (∀ t i, |x t i| ≤ M ∧ |y t i| ≤ M) ∧ (∀ t : ℕ, mp < (t : Int) → 0 < t → x t = y t) ∧
      ∀ (T : ℕ) (tm : ℕ → τ), 0 < T → ∃ v w : ℕ → ι → ℝ,
        volatility (finFrame T tm x) (fin h) mp (some (fin c)) = .ok (finRows (rowsFrom mp T) tm v) ∧
        volatility (finFrame T tm y) (fin h) mp (some (fin c)) = .ok (finRows (rowsFrom mp T) tm w) ∧
        ∀ t i, lo ≤ v t i ∧ v t i ≤ hi ∧ w t i = l * v t i := by
  have h0 := betaOf_pos h
  have h1 := betaOf_lt_one hh
  set b := betaOf h with hb
  set N := mp.toNat with hN
  set r := c ^ 2 * (1 + l) with hr
  have hc2 : 1 < c ^ 2 := by nlinarith
  have hr0 : 1 < r := by nlinarith
  have hQ : ∀ k, 0 ≤ seesawQ b c (r ^ 2) N k ∧ seesawQ b c (r ^ 2) N k ≤ r ^ 2 := fun k => by
    cases k with
    | zero => exact ⟨by simp [seesawQ], by simp only [seesawQ]; nlinarith⟩
    | succ k =>
      simp only [seesawQ]
      split
      · exact ⟨by norm_num, by nlinarith⟩
      · split
        · exact ⟨by positivity, le_rfl⟩
        · exact ⟨le_rfl, by positivity⟩
  set x : ℕ → ι → ℝ := fun k _ => if k ≤ N then 1 else Real.sqrt (seesawQ b c (r ^ 2) N k) with hx
  set y : ℕ → ι → ℝ := fun k _ => if k ≤ N then l else Real.sqrt (seesawQ b c (r ^ 2) N k) with hy
  have hsq : ∀ k, Real.sqrt (seesawQ b c (r ^ 2) N k) ≤ r := fun k => by
    rw [Real.sqrt_le_left (by linarith)]; exact (hQ k).2
  refine ⟨x, y, r, Real.sqrt (b / (1 + b)), c, Real.sqrt_pos.2 (by positivity), fun t i => ⟨?_, ?_⟩, fun t ht ht0 => ?_, fun T tm hT => ?_⟩
  · simp only [hx]
    split
    · rw [abs_one]; linarith
    · rw [abs_of_nonneg (Real.sqrt_nonneg _)]; exact hsq t
  · simp only [hy]
    split
    · rw [abs_of_pos hl]; nlinarith
    · rw [abs_of_nonneg (Real.sqrt_nonneg _)]; exact hsq t
  · have : ¬ t ≤ N := by omega
    funext i
    simp only [hx, hy, if_neg this]
  · have hcs : ∀ d ∈ some c, d ≠ 0 := by
      intro d hd
      rw [Option.mem_some_iff] at hd
      subst hd
      linarith
    have hvx := volatility_fin hh mp hcs hT tm x
    have hvy := volatility_fin hh mp hcs hT tm y
    have e1 : ∀ t i, varSeq (betaOf h) mp (some c) (fun k => x k i ^ 2) t = seesaw b c N t := fun t i => by
      rw [varSeq_seesaw (l := 1) (H := r ^ 2) h0 h1 hc mp one_pos (by rw [hr]; nlinarith [sq_nonneg (c ^ 2), mul_pos (show 0 < c ^ 2 * c ^ 2 by positivity) hl, sq_nonneg (c ^ 2 * l)])
        (fun k hk => by simp only [hx]; rw [if_pos hk, one_pow])
        (fun k hk => by simp only [hx]; rw [if_neg (by omega), Real.sq_sqrt (hQ k).1]) t, one_mul]
    have e2 : ∀ t i, varSeq (betaOf h) mp (some c) (fun k => y k i ^ 2) t = l ^ 2 * seesaw b c N t := fun t i => by
      rw [varSeq_seesaw (l := l ^ 2) (H := r ^ 2) h0 h1 hc mp (by positivity) (by rw [hr]; nlinarith [sq_nonneg (c ^ 2), mul_pos (show 0 < c ^ 2 * c ^ 2 by positivity) hl])
        (fun k hk => by simp only [hy]; rw [if_pos hk])
        (fun k hk => by simp only [hy]; rw [if_neg (by omega), Real.sq_sqrt (hQ k).1]) t]
    refine ⟨_, _, hvx, hvy, fun t i => ?_⟩
    rw [e1 t i, e2 t i]
    have hbd := seesaw_bounds h0 h1 hc N t
    refine ⟨Real.sqrt_le_sqrt hbd.1, ?_, ?_⟩
    · rw [Real.sqrt_le_left (by linarith)]; exact hbd.2
    · rw [Real.sqrt_mul (sq_nonneg l), Real.sqrt_sq hl.le]

/-! ### the hypotheses are met -/

namespace MemoryEx

/-- the defaults of the repository's winsorised runs: half-life 63, 20 rows of warm-up, clipped at 4.2; the early returns three times as large -/
example : ∃ (x y : ℕ → Fin 3 → ℝ) (M lo hi : ℝ), 0 < lo ∧ (∀ t i, |x t i| ≤ M ∧ |y t i| ≤ M) ∧ (∀ t : ℕ, (20 : Int) < (t : Int) → 0 < t → x t = y t) ∧
      ∀ (T : ℕ) (tm : ℕ → ℕ), 0 < T → ∃ v w : ℕ → Fin 3 → ℝ,
        volatility (finFrame T tm x) (fin 63) 20 (some (fin (21 / 5))) = .ok (finRows (rowsFrom 20 T) tm v) ∧
        volatility (finFrame T tm y) (fin 63) 20 (some (fin (21 / 5))) = .ok (finRows (rowsFrom 20 T) tm w) ∧
        ∀ t i, lo ≤ v t i ∧ v t i ≤ hi ∧ w t i = 3 * v t i :=
  C189_clipped_remembers (by norm_num) 20 (by norm_num) (by norm_num)

/-- returns of one percent, and the same with a first day of five percent -/
noncomputable def calm : ℕ → Fin 3 → ℝ := fun _ _ => 1 / 100
noncomputable def jump : ℕ → Fin 3 → ℝ := fun t _ => if t = 0 then 1 / 20 else 1 / 100

theorem runs (clip : Option ℝ) (hc : ∀ c ∈ clip, c ≠ 0) : ∃ v w : ℕ → Fin 3 → ℝ,
    volatility (finFrame 100 (fun k => k) calm) (fin 10) 5 (clip.map fin) = .ok (finRows (rowsFrom 5 100) (fun k => k) v) ∧
    volatility (finFrame 100 (fun k => k) jump) (fin 10) 5 (clip.map fin) = .ok (finRows (rowsFrom 5 100) (fun k => k) w) :=
  ⟨_, _, volatility_fin (by norm_num) 5 hc (by norm_num) _ _, volatility_fin (by norm_num) 5 hc (by norm_num) _ _⟩

theorem calm_le_jump (k : ℕ) (i : Fin 3) : |calm k i| ≤ |jump k i| := by
  unfold calm jump
  split <;> norm_num [abs_of_pos]

example : ∃ v w : ℕ → Fin 3 → ℝ,
    volatility (finFrame 100 (fun k => k) calm) (fin 10) 5 (some (fin 3)) = .ok (finRows (rowsFrom 5 100) (fun k => k) v) ∧
    volatility (finFrame 100 (fun k => k) jump) (fin 10) 5 (some (fin 3)) = .ok (finRows (rowsFrom 5 100) (fun k => k) w) ∧
    (∀ t < 100, 4 ≤ t → ∀ i, v t i ≤ w t i) ∧ ∀ l : ℝ, 1 ≤ l → w 4 1 ≤ l * v 4 1 → w 99 1 ≤ l * v 99 1 := by
  have hc : ∀ c ∈ some (3 : ℝ), c ≠ 0 := by simp
  obtain ⟨v, w, hv, hw⟩ := runs (some 3) hc
  exact ⟨v, w, hv, hw,
    fun t ht h4 i => C189_monotone (by norm_num) 5 hc (by norm_num) _ calm jump hv hw ht (by omega) i fun k _ => calm_le_jump k i,
    fun l hl hs => C189_memory (by norm_num) 5 hc (by norm_num) _ calm jump hv hw (s := 4) (t := 99) (by norm_num) (by norm_num) (by norm_num) 1
      (fun k hk _ => by simp [calm, jump, show k ≠ 0 by omega]) hl hs⟩

example : ∃ v w : ℕ → Fin 3 → ℝ,
    volatility (finFrame 100 (fun k => k) calm) (fin 10) 5 none = .ok (finRows (rowsFrom 5 100) (fun k => k) v) ∧
    volatility (finFrame 100 (fun k => k) jump) (fin 10) 5 none = .ok (finRows (rowsFrom 5 100) (fun k => k) w) ∧
    |w 24 1 ^ 2 - v 24 1 ^ 2| ≤ (2 : ℝ) ^ (-((24 - 4 : ℕ) : ℝ) / 10) * |w 4 1 ^ 2 - v 4 1 ^ 2| := by
  obtain ⟨v, w, hv, hw⟩ := runs none (by simp)
  exact ⟨v, w, hv, hw, C189_unclipped (by norm_num) 5 (by norm_num) _ calm jump hv hw (s := 4) (t := 24) (by norm_num) (by norm_num) (by norm_num) 1
      (fun k hk _ => by simp [calm, jump, show k ≠ 0 by omega])⟩

end MemoryEx

end CovPred
