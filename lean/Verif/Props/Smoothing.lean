import Verif.Model.Smoothing
import Verif.Spec.Smoothing
import Verif.Lemmas.Backtests
import Mathlib.Analysis.Matrix.Normed

/-
Property C135: `L1_smoothing`.
-/
set_option linter.unusedSectionVars false
namespace CovPred
open Matrix

variable {τ : Type} {n : ℕ}

section
attribute [local instance] Matrix.frobeniusNormedAddCommGroup Matrix.frobeniusNormedSpace

theorem frobNorm_eq_norm (A : Mat n) : frobNorm A = ‖A‖ := by
  rw [Matrix.frobenius_norm_def, frobNorm, Real.sqrt_eq_rpow]
  simp

theorem frobNorm_nonneg (A : Mat n) : 0 ≤ frobNorm A := Real.sqrt_nonneg _

theorem frobNorm_smul (c : ℝ) (A : Mat n) : frobNorm (c • A) = |c| * frobNorm A := by
  rw [frobNorm_eq_norm, frobNorm_eq_norm, norm_smul, Real.norm_eq_abs]

theorem frobNorm_add_le (A B : Mat n) : frobNorm (A + B) ≤ frobNorm A + frobNorm B := by
  simp only [frobNorm_eq_norm]; exact norm_add_le _ _

theorem frobNorm_sub_comm (A B : Mat n) : frobNorm (A - B) = frobNorm (B - A) := by
  simp only [frobNorm_eq_norm]; exact norm_sub_rev _ _

theorem frobNorm_zero_iff (A : Mat n) : frobNorm A = 0 ↔ A = 0 := by
  rw [frobNorm_eq_norm]; exact norm_eq_zero

theorem frobNorm_triangle (A B C : Mat n) : frobNorm (A - C) ≤ frobNorm (A - B) + frobNorm (B - C) := by
  have := frobNorm_add_le (A - B) (B - C)
  rwa [sub_add_sub_cancel] at this

end

theorem frobNorm_eq_frob (A : Mat n) : frobNorm A = Real.sqrt (frob A) := rfl

private theorem dist2_eq (A B : Mat n) : dist2 A B = frobNorm (A - B) := rfl

theorem onLine_sub_left (X Y : Mat n) (theta : ℝ) : onLine X Y theta - X = (theta - 1) • (X - Y) := by
  unfold onLine; module

theorem onLine_sub_right (X Y : Mat n) (theta : ℝ) : onLine X Y theta - Y = theta • (X - Y) := by
  unfold onLine; module

private theorem objective_eq (X Y : Mat n) (lamda theta : ℝ) :
    smoothObjective X Y lamda theta
      = 1 / 2 * ((1 - theta) * frobNorm (X - Y)) ^ 2 + lamda * (|theta| * frobNorm (X - Y)) := by
  unfold smoothObjective
  rw [onLine_sub_left, onLine_sub_right, frobNorm_smul, frobNorm_smul, mul_pow, sq_abs, mul_pow]
  ring

/-- the minimiser on the line -/
private theorem line_minimiser {X Y : Mat n} {lamda theta : ℝ} (hl : 0 ≤ lamda) (hD : lamda < frobNorm (X - Y))
    (h : ∀ theta', smoothObjective X Y lamda theta ≤ smoothObjective X Y lamda theta') :
    theta = 1 - lamda / frobNorm (X - Y) := by
  have hpos : 0 < frobNorm (X - Y) := lt_of_le_of_lt hl hD
  have h1 := h (1 - lamda / frobNorm (X - Y))
  rw [objective_eq, objective_eq] at h1
  generalize frobNorm (X - Y) = D at *
  have hq : lamda / D ≤ 1 := by rw [div_le_one hpos]; exact hD.le
  have hs : (0 : ℝ) ≤ 1 - lamda / D := by linarith
  rw [abs_of_nonneg hs] at h1
  have h2 : lamda * (theta * D) ≤ lamda * (|theta| * D) :=
    mul_le_mul_of_nonneg_left (mul_le_mul_of_nonneg_right (le_abs_self _) hpos.le) hl
  have h3 : 1 / 2 * ((1 - theta) * D) ^ 2 + lamda * (theta * D) ≤
      1 / 2 * ((1 - (1 - lamda / D)) * D) ^ 2 + lamda * ((1 - lamda / D) * D) := by linarith
  have h4 : lamda = (lamda / D) * D := by field_simp
  generalize lamda / D = q at *
  subst h4
  have h5 : D ^ 2 * (theta - (1 - q)) ^ 2 ≤ 0 := by nlinarith
  have h6 : (theta - (1 - q)) ^ 2 ≤ 0 := by
    by_contra hc
    push Not at hc
    have : 0 < D ^ 2 * (theta - (1 - q)) ^ 2 := by positivity
    linarith
  have h7 : theta - (1 - q) = 0 := by
    have := le_antisymm h6 (sq_nonneg _)
    exact pow_eq_zero_iff (two_ne_zero) |>.mp this
  linarith

/-- The matrix `L1_smoothing` is to choose after `Y` when the unsmoothed matrix is `X`: `Y` if it is within `lamda` of
`X`, else the point of the segment from `Y` to `X` at distance `lamda` from `X`. -/
noncomputable def smoothSpec (lamda : ℝ) (Y X : Mat n) : Mat n :=
  if dist2 X Y ≤ lamda then Y else X + (lamda / dist2 X Y) • (Y - X)

/-- The smoothed sequence of the sequence `X` of matrices. -/
noncomputable def smoothSeq (lamda : ℝ) (X : ℕ → Mat n) : ℕ → Mat n
  | 0 => X 0
  | t + 1 => smoothSpec lamda (smoothSeq lamda X t) (X (t + 1))

private theorem spec_psd {lamda : ℝ} (hl : 0 ≤ lamda) {X Y : Mat n} (hX : X.PosSemidef) (hY : Y.PosSemidef) :
    (smoothSpec lamda Y X).PosSemidef := by
  unfold smoothSpec
  split
  · exact hY
  · rename_i h
    push Not at h
    have hpos : 0 < dist2 X Y := lt_of_le_of_lt hl h
    have hq : lamda / dist2 X Y ≤ 1 := by rw [div_le_one hpos]; exact h.le
    have hq0 : 0 ≤ lamda / dist2 X Y := by positivity
    have : X + (lamda / dist2 X Y) • (Y - X) = (1 - lamda / dist2 X Y) • X + (lamda / dist2 X Y) • Y := by module
    rw [this]
    exact (hX.smul (by linarith)).add (hY.smul hq0)

private theorem spec_posDef {lamda : ℝ} (hl : 0 ≤ lamda) {X Y : Mat n} (hX : X.PosDef) (hY : Y.PosDef) :
    (smoothSpec lamda Y X).PosDef := by
  unfold smoothSpec
  split
  · exact hY
  · rename_i h
    push Not at h
    have hpos : 0 < dist2 X Y := lt_of_le_of_lt hl h
    have hq : lamda / dist2 X Y < 1 := by rw [div_lt_one hpos]; exact h
    have hq0 : 0 ≤ lamda / dist2 X Y := by positivity
    have : X + (lamda / dist2 X Y) • (Y - X) = (1 - lamda / dist2 X Y) • X + (lamda / dist2 X Y) • Y := by module
    rw [this]
    exact (hX.smul (by linarith)).add_posSemidef (hY.posSemidef.smul hq0)

private theorem getNext_ok {solver : LineSolver n} (hs : solver.Exact) {lamda : ℝ} (hl : 0 ≤ lamda) {X Y Z : Mat n}
    (hD : ¬ frobNorm (Y - X) ≤ lamda) (h : getNext solver X Y lamda = .ok Z) : Z = smoothSpec lamda Y X := by
  unfold getNext at h
  split at h
  · cases h
  · split at h
    · cases h
    · cases hsol : solver X Y lamda with
      | error e => rw [hsol] at h; cases h
      | ok theta =>
        rw [hsol] at h
        cases h
        rw [frobNorm_sub_comm] at hD
        unfold smoothSpec
        rw [dist2_eq, if_neg hD]
        push Not at hD
        have := line_minimiser hl hD (hs X Y lamda theta hsol)
        rw [this]
        unfold onLine
        module

private theorem getNext_total {solver : LineSolver n} (hs : solver.Exact) (hc : solver.Complete) {lamda : ℝ} (hl : 0 ≤ lamda)
    {X Y : Mat n} (hX : X.PosSemidef) (hY : Y.PosSemidef) (hD : ¬ frobNorm (Y - X) ≤ lamda) :
    getNext solver X Y lamda = .ok (smoothSpec lamda Y X) := by
  obtain ⟨theta, ht⟩ := hc X Y lamda hl
  have : getNext solver X Y lamda = .ok (onLine X Y theta) := by
    unfold getNext
    rw [if_neg (by simp [hX, hY]), if_neg (by linarith), ht]
    rfl
  rw [this, ← getNext_ok hs hl hD this]

open Classical in
/-- flag of an update -/
noncomputable def updateFlag (lamda : ℝ) (X : ℕ → Mat n) (t : ℕ) : ℕ :=
  if dist2 (X (t + 1)) (smoothSeq lamda X t) ≤ lamda then 0 else 1

private theorem spec_step (lamda : ℝ) (X : ℕ → Mat n) (t : ℕ) :
    smoothSeq lamda X (t + 1) = if frobNorm (smoothSeq lamda X t - X (t + 1)) ≤ lamda then smoothSeq lamda X t
      else smoothSpec lamda (smoothSeq lamda X t) (X (t + 1)) := by
  rw [frobNorm_sub_comm]
  split
  · rename_i h
    rw [smoothSeq, smoothSpec, dist2_eq, if_pos h]
  · rfl

private theorem seq_psd {lamda : ℝ} (hl : 0 ≤ lamda) {X : ℕ → Mat n} {T : ℕ} (hX : ∀ t ≤ T, (X t).PosSemidef) :
    ∀ t ≤ T, (smoothSeq lamda X t).PosSemidef := by
  intro t
  induction t with
  | zero => exact fun h => hX 0 h
  | succ t ih => exact fun h => spec_psd hl (hX _ h) (ih (by omega))

private theorem loop_total {solver : LineSolver n} (hs : solver.Exact) (hc : solver.Complete) {lamda : ℝ} (hl : 0 ≤ lamda)
    {X : ℕ → Mat n} {T : ℕ} (hX : ∀ t ≤ T, (X t).PosSemidef) : ∀ (m t : ℕ), t + m ≤ T →
    ∃ out, smoothLoop solver lamda (smoothSeq lamda X t) ((List.range' (t + 1) m).map X) = .ok out := by
  have hpsd := seq_psd hl hX
  intro m
  induction m with
  | zero => exact fun t _ => ⟨_, rfl⟩
  | succ m ih =>
    intro t ht
    rw [List.range'_succ, List.map_cons, smoothLoop]
    have hstep := spec_step lamda X t
    obtain ⟨out, ho⟩ := ih (t + 1) (by omega)
    by_cases h : frobNorm (smoothSeq lamda X t - X (t + 1)) ≤ lamda
    · rw [if_pos h] at hstep ⊢
      rw [hstep] at ho
      rw [ho]
      exact ⟨_, rfl⟩
    · rw [if_neg h] at hstep ⊢
      rw [getNext_total hs hc hl (hX _ (by omega)) (hpsd t (by omega)) h, ← hstep]
      change ∃ o, (do let out ← smoothLoop solver lamda (smoothSeq lamda X (t + 1)) _; pure _) = Except.ok o
      rw [ho]
      exact ⟨_, rfl⟩

private theorem loop_ok {solver : LineSolver n} (hs : solver.Exact) {lamda : ℝ} (hl : 0 ≤ lamda)
    {X : ℕ → Mat n} : ∀ (m t : ℕ) out,
    smoothLoop solver lamda (smoothSeq lamda X t) ((List.range' (t + 1) m).map X) = .ok out →
    out = (List.range' (t + 1) m).map fun s => (smoothSeq lamda X s, updateFlag lamda X (s - 1)) := by
  intro m
  induction m with
  | zero => intro t out h; cases h; rfl
  | succ m ih =>
    intro t out hout
    rw [List.range'_succ, List.map_cons, smoothLoop] at hout
    rw [List.range'_succ, List.map_cons]
    have hstep := spec_step lamda X t
    by_cases h : frobNorm (smoothSeq lamda X t - X (t + 1)) ≤ lamda
    · rw [if_pos h] at hstep hout
      obtain ⟨o, ho, hr⟩ := (bind_ok_iff _ _ _).mp hout
      cases hr
      have ih' := ih (t + 1) o (by rw [hstep]; exact ho)
      rw [ih', hstep]
      have hf : updateFlag lamda X (t + 1 - 1) = 0 := by
        unfold updateFlag
        rw [Nat.add_sub_cancel, dist2_eq, frobNorm_sub_comm, if_pos h]
      rw [hf]
    · rw [if_neg h] at hstep hout
      obtain ⟨Y, hY, hr⟩ := (bind_ok_iff _ _ _).mp hout
      obtain ⟨o, ho, hr⟩ := (bind_ok_iff _ _ _).mp hr
      cases hr
      have hY' := getNext_ok hs hl h hY
      rw [← hstep] at hY'
      subst hY'
      rw [ih (t + 1) o ho]
      have hf : updateFlag lamda X (t + 1 - 1) = 1 := by
        unfold updateFlag
        rw [Nat.add_sub_cancel, dist2_eq, frobNorm_sub_comm, if_neg h]
      rw [hf]

private theorem dist2_nonneg (A B : Mat n) : 0 ≤ dist2 A B := Real.sqrt_nonneg _

private theorem dist2_comm (A B : Mat n) : dist2 A B = dist2 B A := frobNorm_sub_comm A B

private theorem dist2_triangle (A B C : Mat n) : dist2 A C ≤ dist2 A B + dist2 B C := frobNorm_triangle A B C

private theorem dist2_self (A : Mat n) : dist2 A A = 0 := by rw [dist2_eq, sub_self, frobNorm_zero_iff]

private theorem dist2_eq_zero {A B : Mat n} : dist2 A B = 0 ↔ A = B := by
  rw [dist2_eq, frobNorm_zero_iff, sub_eq_zero]

private theorem dist2_sq (A B : Mat n) : dist2 A B ^ 2 = frob (A - B) :=
  Real.sq_sqrt (Finset.sum_nonneg fun i _ => Finset.sum_nonneg fun j _ => sq_nonneg _)

/-- strong convexity of half the squared distance -/
private theorem mid_sq (A B X : Mat n) :
    dist2 ((1 / 2 : ℝ) • A + (1 / 2 : ℝ) • B) X ^ 2
      = 1 / 2 * dist2 A X ^ 2 + 1 / 2 * dist2 B X ^ 2 - 1 / 4 * dist2 A B ^ 2 := by
  simp only [dist2_sq, frob, Finset.mul_sum, ← Finset.sum_add_distrib, ← Finset.sum_sub_distrib]
  refine Finset.sum_congr rfl fun i _ => Finset.sum_congr rfl fun j _ => ?_
  simp only [Matrix.sub_apply, Matrix.add_apply, Matrix.smul_apply, smul_eq_mul]
  ring

private theorem mid_le (A B Y : Mat n) :
    dist2 ((1 / 2 : ℝ) • A + (1 / 2 : ℝ) • B) Y ≤ 1 / 2 * dist2 A Y + 1 / 2 * dist2 B Y := by
  have h : (1 / 2 : ℝ) • A + (1 / 2 : ℝ) • B - Y = (1 / 2 : ℝ) • (A - Y) + (1 / 2 : ℝ) • (B - Y) := by module
  rw [dist2_eq, h]
  refine (frobNorm_add_le _ _).trans (le_of_eq ?_)
  rw [frobNorm_smul, frobNorm_smul, dist2_eq, dist2_eq]
  norm_num

private theorem spec_dist {lamda : ℝ} (hl : 0 ≤ lamda) {X Y : Mat n} (h : lamda < dist2 X Y) :
    dist2 (smoothSpec lamda Y X) X = lamda ∧ dist2 (smoothSpec lamda Y X) Y = dist2 X Y - lamda := by
  have hpos : 0 < dist2 X Y := lt_of_le_of_lt hl h
  have hq : lamda / dist2 X Y ≤ 1 := by rw [div_le_one hpos]; exact h.le
  have hq0 : 0 ≤ lamda / dist2 X Y := by positivity
  unfold smoothSpec
  rw [if_neg (not_le.mpr h)]
  have e1 : X + (lamda / dist2 X Y) • (Y - X) - X = (lamda / dist2 X Y) • (Y - X) := by module
  have e2 : X + (lamda / dist2 X Y) • (Y - X) - Y = (1 - lamda / dist2 X Y) • (X - Y) := by module
  constructor
  · rw [dist2_eq _ X, e1, frobNorm_smul, abs_of_nonneg hq0, ← dist2_eq, dist2_comm Y X]
    field_simp
  · rw [dist2_eq _ Y, e2, frobNorm_smul, abs_of_nonneg (by linarith), ← dist2_eq]
    field_simp

private theorem spec_le {lamda : ℝ} (hl : 0 ≤ lamda) (X Y B : Mat n) :
    smoothCost lamda X Y (smoothSpec lamda Y X) ≤ smoothCost lamda X Y B := by
  have htri := dist2_triangle X B Y
  rw [dist2_comm X B] at htri
  have hb := dist2_nonneg B X
  have hb' := dist2_nonneg B Y
  have hD := dist2_nonneg X Y
  unfold smoothCost
  by_cases h : dist2 X Y ≤ lamda
  · have : smoothSpec lamda Y X = Y := if_pos h
    rw [this, dist2_self, dist2_comm Y X]
    generalize dist2 X Y = D at *
    generalize dist2 B X = b at *
    generalize dist2 B Y = c at *
    have : D * c ≤ lamda * c := mul_le_mul_of_nonneg_right h hb'
    nlinarith [sq_nonneg (D - b), mul_le_mul_of_nonneg_left (sub_le_iff_le_add'.mpr htri) hD]
  · push Not at h
    obtain ⟨h1, h2⟩ := spec_dist hl h
    rw [h1, h2]
    generalize dist2 X Y = D at *
    generalize dist2 B X = b at *
    generalize dist2 B Y = c at *
    nlinarith [sq_nonneg (lamda - b), mul_le_mul_of_nonneg_left (sub_le_iff_le_add'.mpr htri) hl]

private theorem spec_lt {lamda : ℝ} (hl : 0 ≤ lamda) {X Y B : Mat n} (hB : B ≠ smoothSpec lamda Y X) :
    smoothCost lamda X Y (smoothSpec lamda Y X) < smoothCost lamda X Y B := by
  by_contra hc
  push Not at hc
  have hm := spec_le hl X Y ((1 / 2 : ℝ) • B + (1 / 2 : ℝ) • smoothSpec lamda Y X)
  generalize smoothSpec lamda Y X = Z at *
  have h1 := mid_sq B Z X
  have h2 := mul_le_mul_of_nonneg_left (mid_le B Z Y) hl
  have h3 : 0 < dist2 B Z := lt_of_le_of_ne (dist2_nonneg _ _) fun h => hB (dist2_eq_zero.mp h.symm)
  have h4 : 0 < dist2 B Z ^ 2 := by positivity
  unfold smoothCost at *
  nlinarith

private theorem seq_spec {lamda : ℝ} (hl : 0 ≤ lamda) (X : ℕ → Mat n) (T : ℕ) :
    L1Smoothed lamda T X (smoothSeq lamda X) := ⟨rfl, fun _ _ _ hB => spec_lt hl hB⟩

/-- the specification determines the smoothed sequence -/
theorem smoothed_eq {lamda : ℝ} (hl : 0 ≤ lamda) {X Y : ℕ → Mat n} {T : ℕ} (h : L1Smoothed lamda T X Y) :
    ∀ t ≤ T, Y t = smoothSeq lamda X t := by
  intro t
  induction t with
  | zero => exact fun _ => h.1
  | succ t ih =>
    intro ht
    have := ih (by omega)
    by_contra hne
    have h1 := h.2 t (by omega) (smoothSeq lamda X (t + 1)) (Ne.symm hne)
    rw [this] at h1
    exact absurd (spec_lt hl hne) (not_lt.mpr h1.le)

theorem smoothed_unique {lamda : ℝ} (hl : 0 ≤ lamda) {X Y Y' : ℕ → Mat n} {T : ℕ} (h : L1Smoothed lamda T X Y)
    (h' : L1Smoothed lamda T X Y') : ∀ t ≤ T, Y t = Y' t := fun t ht => by
  rw [smoothed_eq hl h t ht, smoothed_eq hl h' t ht]

private theorem l1_eq {solver : LineSolver n} {lamda : ℝ} {times : ℕ → τ} {X : ℕ → Mat n} {T : ℕ} :
    l1Smoothing solver ((List.range (T + 1)).map fun i => (times i, X i)) lamda = (do
      let out ← smoothLoop solver lamda (smoothSeq lamda X 0) ((List.range' 1 T).map X)
      pure (List.zip ((List.range (T + 1)).map times) (X 0 :: out.map Prod.fst), out.map Prod.snd)) := by
  unfold l1Smoothing
  rw [List.map_map, List.map_map]
  have : List.range (T + 1) = 0 :: List.range' 1 T := by
    rw [List.range_eq_range', List.range'_succ]
  conv_lhs => rw [this]
  simp only [List.map_cons, Function.comp]
  rw [this]
  rfl

private theorem zip_map {α β : Type} (l : List ℕ) (f : ℕ → α) (g : ℕ → β) :
    List.zip (l.map f) (l.map g) = l.map fun i => (f i, g i) := by
  rw [List.zip_map']

private theorem l1_ok {solver : LineSolver n} (hs : solver.Exact) {lamda : ℝ} (hl : 0 ≤ lamda) {times : ℕ → τ}
    {X : ℕ → Mat n} {T : ℕ} {out}
    (h : l1Smoothing solver ((List.range (T + 1)).map fun i => (times i, X i)) lamda = .ok out) :
    out = ((List.range (T + 1)).map (fun i => (times i, smoothSeq lamda X i)),
      (List.range T).map (updateFlag lamda X)) := by
  rw [l1_eq] at h
  obtain ⟨o, ho, hr⟩ := (bind_ok_iff _ _ _).mp h
  cases hr
  rw [loop_ok hs hl T 0 o ho]
  have : List.range (T + 1) = 0 :: List.range' 1 T := by
    rw [List.range_eq_range', List.range'_succ]
  congr 1
  · rw [List.map_map, this]
    simp only [List.map_cons, List.zip_cons_cons]
    congr 1
    exact zip_map _ _ _
  · rw [List.map_map, List.range'_eq_map_range, List.map_map]
    refine List.map_congr_left fun i _ => ?_
    simp [Function.comp]

/-- C135: when the covariances are positive semidefinite and `lamda0` is not negative `L1_smoothing` never fails: it
returns the same dates in the same order, with the matrices of the smoothed sequence (and with one flag for every date
after the first). -/
theorem C135_smoothed {solver : LineSolver n} (hs : solver.Exact) (hc : solver.Complete) {lamda : ℝ} (hl : 0 ≤ lamda)
    {T : ℕ} (times : ℕ → τ) {X : ℕ → Mat n} (hX : ∀ t ≤ T, (X t).PosSemidef) :
    ∃ (Y : ℕ → Mat n) (u : ℕ → ℕ),
      l1Smoothing solver ((List.range (T + 1)).map fun i => (times i, X i)) lamda
        = .ok ((List.range (T + 1)).map (fun i => (times i, Y i)), (List.range T).map u) ∧
      L1Smoothed lamda T X Y ∧
      ∀ t < T, u t = 0 ∧ Y (t + 1) = Y t ∧ dist2 (X (t + 1)) (Y t) ≤ lamda ∨
        u t = 1 ∧ Y (t + 1) ≠ Y t ∧ lamda < dist2 (X (t + 1)) (Y t) := by
  have hok : ∃ out, l1Smoothing solver ((List.range (T + 1)).map fun i => (times i, X i)) lamda = .ok out := by
    obtain ⟨o, ho⟩ := loop_total hs hc hl hX T 0 (by omega)
    rw [l1_eq, ho]
    exact ⟨_, rfl⟩
  obtain ⟨out, ho⟩ := hok
  refine ⟨smoothSeq lamda X, updateFlag lamda X, ?_, seq_spec hl X T, ?_⟩
  · rw [ho, l1_ok hs hl ho]
  · intro t _
    unfold updateFlag
    by_cases h : dist2 (X (t + 1)) (smoothSeq lamda X t) ≤ lamda
    · left
      exact ⟨if_pos h, if_pos h, h⟩
    · right
      push Not at h
      refine ⟨if_neg (not_le.mpr h), fun he => ?_, h⟩
      have := (spec_dist hl h).1
      change dist2 (smoothSeq lamda X (t + 1)) (X (t + 1)) = lamda at this
      rw [he, dist2_comm] at this
      linarith

/-- C135, other direction: any call that does not raise returns the smoothed sequence, whatever the inputs. -/
theorem C135_any {solver : LineSolver n} (hs : solver.Exact) {lamda : ℝ} (hl : 0 ≤ lamda) {T : ℕ} {times : ℕ → τ}
    {X Y : ℕ → Mat n} (hY : L1Smoothed lamda T X Y) {out}
    (h : l1Smoothing solver ((List.range (T + 1)).map fun i => (times i, X i)) lamda = .ok out) :
    out.1 = (List.range (T + 1)).map fun i => (times i, Y i) := by
  rw [l1_ok hs hl h]
  refine List.map_congr_left fun i hi => ?_
  rw [smoothed_eq hl hY i (by rw [List.mem_range] at hi; omega)]

/-- C135: what a smoothed sequence is: every matrix is within `lamda` of the unsmoothed one, it moves on the segment towards
the unsmoothed matrix, by the excess of the distance over `lamda`, and it never moves by more than the
unsmoothed sequence does. -/
theorem C135_shape {lamda : ℝ} (hl : 0 ≤ lamda) {T : ℕ} {X Y : ℕ → Mat n} (hY : L1Smoothed lamda T X Y) :
    (∀ t ≤ T, dist2 (Y t) (X t) ≤ lamda) ∧
    (∀ t < T, dist2 (Y (t + 1)) (Y t) = max (dist2 (X (t + 1)) (Y t) - lamda) 0) ∧
    (∀ t < T, dist2 (Y (t + 1)) (Y t) ≤ dist2 (X (t + 1)) (X t)) ∧
    (∀ t < T, ∃ theta : ℝ, 0 ≤ theta ∧ theta ≤ 1 ∧ Y (t + 1) = theta • X (t + 1) + (1 - theta) • Y t) := by
  have hE := smoothed_eq hl hY
  have hA : ∀ t ≤ T, dist2 (smoothSeq lamda X t) (X t) ≤ lamda := by
    intro t ht
    cases t with
    | zero => exact (dist2_self _).trans_le hl
    | succ t =>
      by_cases h : dist2 (X (t + 1)) (smoothSeq lamda X t) ≤ lamda
      · have : smoothSeq lamda X (t + 1) = smoothSeq lamda X t := if_pos h
        rw [this, dist2_comm]; exact h
      · push Not at h
        exact (spec_dist hl h).1.le
  have hB : ∀ t < T, dist2 (smoothSeq lamda X (t + 1)) (smoothSeq lamda X t)
      = max (dist2 (X (t + 1)) (smoothSeq lamda X t) - lamda) 0 := by
    intro t ht
    by_cases h : dist2 (X (t + 1)) (smoothSeq lamda X t) ≤ lamda
    · have : smoothSeq lamda X (t + 1) = smoothSeq lamda X t := if_pos h
      rw [this, dist2_self, max_eq_right (by linarith)]
    · push Not at h
      rw [max_eq_left (by linarith)]
      exact (spec_dist hl h).2
  refine ⟨fun t ht => ?_, fun t ht => ?_, fun t ht => ?_, fun t ht => ?_⟩
  · rw [hE t ht]; exact hA t ht
  · rw [hE t ht.le, hE (t + 1) ht]; exact hB t ht
  · rw [hE t ht.le, hE (t + 1) ht, hB t ht]
    have h1 := dist2_triangle (X (t + 1)) (X t) (smoothSeq lamda X t)
    rw [dist2_comm (X t)] at h1
    exact max_le (by linarith [hA t ht.le]) (dist2_nonneg _ _)
  · rw [hE t ht.le, hE (t + 1) ht]
    by_cases h : dist2 (X (t + 1)) (smoothSeq lamda X t) ≤ lamda
    · have : smoothSeq lamda X (t + 1) = smoothSeq lamda X t := if_pos h
      exact ⟨0, le_refl _, zero_le_one, by rw [this]; simp⟩
    · have e : smoothSeq lamda X (t + 1) = _ := if_neg h
      push Not at h
      have hpos := lt_of_le_of_lt hl h
      refine ⟨1 - lamda / dist2 (X (t + 1)) (smoothSeq lamda X t), ?_, ?_, ?_⟩
      · have : lamda / dist2 (X (t + 1)) (smoothSeq lamda X t) ≤ 1 := by rw [div_le_one hpos]; exact h.le
        linarith
      · have : 0 ≤ lamda / dist2 (X (t + 1)) (smoothSeq lamda X t) := by positivity
        linarith
      · rw [e]; module

/-- C135: smoothing keeps the covariances valid: symmetric, positive semidefinite, positive definite. -/
theorem C135_valid {lamda : ℝ} (hl : 0 ≤ lamda) {T : ℕ} {X Y : ℕ → Mat n} (hY : L1Smoothed lamda T X Y) :
    ((∀ t ≤ T, (X t).IsSymm) → ∀ t ≤ T, (Y t).IsSymm) ∧
    ((∀ t ≤ T, (X t).PosSemidef) → ∀ t ≤ T, (Y t).PosSemidef) ∧
    ((∀ t ≤ T, (X t).PosDef) → ∀ t ≤ T, (Y t).PosDef) := by
  have hE := smoothed_eq hl hY
  refine ⟨fun h t ht => ?_, fun h t ht => ?_, fun h t ht => ?_⟩
  · induction t with
    | zero => rw [hY.1]; exact h 0 ht
    | succ t ih =>
      obtain ⟨theta, -, -, he⟩ := (C135_shape hl hY).2.2.2 t ht
      rw [he]
      exact ((h _ ht).smul _).add ((ih (by omega)).smul _)
  · rw [hE t ht]; exact seq_psd hl h t ht
  · rw [hE t ht]
    induction t with
    | zero => exact h 0 ht
    | succ t ih => exact spec_posDef hl (h _ ht) (ih (by omega))

/-- C135: the smoothed matrix of a date depends on the matrices up to that date only; `lamda = 0` smooths nothing and
a constant sequence is not changed. -/
theorem C135_causal {lamda : ℝ} (hl : 0 ≤ lamda) {T T' : ℕ} {X X' Y Y' : ℕ → Mat n} (hY : L1Smoothed lamda T X Y)
    (hY' : L1Smoothed lamda T' X' Y') :
    (∀ t, t ≤ T → t ≤ T' → (∀ s ≤ t, X s = X' s) → Y t = Y' t) ∧
    (lamda = 0 → ∀ t ≤ T, Y t = X t) ∧
    ((∀ t ≤ T, X t = X 0) → ∀ t ≤ T, Y t = X 0) := by
  refine ⟨fun t ht ht' hX => ?_, fun h0 t ht => ?_, fun hX t ht => ?_⟩
  · rw [smoothed_eq hl hY t ht, smoothed_eq hl hY' t ht']
    clear ht ht'
    induction t with
    | zero => exact hX 0 le_rfl
    | succ t ih => rw [smoothSeq, smoothSeq, ih fun s hs => hX s (by omega), hX (t + 1) le_rfl]
  · have := (C135_shape hl hY).1 t ht
    exact dist2_eq_zero.mp (le_antisymm (h0 ▸ this) (dist2_nonneg _ _))
  · induction t with
    | zero => exact hY.1
    | succ t ih =>
      have h1 := (C135_shape hl hY).2.2.1 t ht
      rw [hX (t + 1) ht, hX t (by omega), dist2_self] at h1
      rw [← ih (by omega)]
      exact dist2_eq_zero.mp (le_antisymm h1 (dist2_nonneg _ _))

/-- C135: when `L1_smoothing` raises: on an empty dictionary, with a negative `lamda0` as soon as there are two dates, and
when the matrix it has to move to is not positive semidefinite. -/
theorem C135_errors (solver : LineSolver n) :
    (∀ lamda, l1Smoothing solver ([] : Dict τ (Mat n)) lamda = .error .indexError) ∧
    (∀ lamda, lamda < 0 → ∀ (p q : τ × Mat n) rest, ∃ e, l1Smoothing solver (p :: q :: rest) lamda = .error e) ∧
    (∀ lamda (p q : τ × Mat n) rest, lamda < dist2 q.2 p.2 → ¬ q.2.PosSemidef →
      l1Smoothing solver (p :: q :: rest) lamda = .error .valueError) := by
  refine ⟨fun _ => rfl, fun lamda hl p q rest => ?_, fun lamda p q rest hd hq => ?_⟩
  · unfold l1Smoothing
    simp only [List.map_cons]
    have : ¬ frobNorm (p.2 - q.2) ≤ lamda := by have := frobNorm_nonneg (p.2 - q.2); linarith
    rw [smoothLoop, if_neg this]
    unfold getNext
    rw [if_pos hl]
    split
    · exact ⟨_, rfl⟩
    · exact ⟨_, rfl⟩
  · unfold l1Smoothing
    simp only [List.map_cons]
    have : ¬ frobNorm (p.2 - q.2) ≤ lamda := by rw [frobNorm_sub_comm]; exact not_le.mpr hd
    rw [smoothLoop, if_neg this]
    unfold getNext
    rw [if_pos (Or.inl hq)]
    rfl

/-- An exact and complete solver exists. -/
noncomputable def lineSolver : LineSolver n := fun X Y lamda =>
  open Classical in
  if h : ∃ theta, ∀ theta', smoothObjective X Y lamda theta ≤ smoothObjective X Y lamda theta' then .ok h.choose
  else .error .other

theorem lineSolver_exact : (lineSolver (n := n)).Exact := by
  intro X Y lamda theta h
  unfold lineSolver at h
  split at h
  · rename_i hex
    cases h
    exact hex.choose_spec
  · cases h

theorem lineSolver_complete : (lineSolver (n := n)).Complete := by
  intro X Y lamda hl
  have hex : ∃ theta, ∀ theta', smoothObjective X Y lamda theta ≤ smoothObjective X Y lamda theta' := by
    have key : ∀ theta, smoothObjective X Y lamda theta = smoothCost lamda X Y (onLine X Y theta) := fun _ => rfl
    by_cases h : dist2 X Y ≤ lamda
    · refine ⟨0, fun theta' => ?_⟩
      have e : onLine X Y 0 = smoothSpec lamda Y X := by rw [smoothSpec, if_pos h, onLine]; simp
      rw [key, key, e]
      exact spec_le hl X Y _
    · refine ⟨1 - lamda / dist2 X Y, fun theta' => ?_⟩
      have e : onLine X Y (1 - lamda / dist2 X Y) = smoothSpec lamda Y X := by
        rw [smoothSpec, if_neg h, onLine]; module
      rw [key, key, e]
      exact spec_le hl X Y _
  unfold lineSolver
  rw [dif_pos hex]
  exact ⟨_, rfl⟩

/-- The hypotheses of C135 are met, and both kinds of step occur: with `lamda = 1` the sequence `1, 1/2, 5` of variances
of one asset is smoothed to `1, 1, 4`. -/
example : ∃ Y : ℕ → Mat 1, ∃ u : ℕ → ℕ,
    l1Smoothing lineSolver ((List.range 3).map fun i : ℕ => (i, Matrix.of fun _ _ => ![1, 1 / 2, 5] (Fin.ofNat 3 i))) 1
      = .ok ((List.range 3).map (fun i => (i, Y i)), (List.range 2).map u) ∧
    Y 1 0 0 = 1 ∧ Y 2 0 0 = 4 ∧ u 0 = 0 ∧ u 1 = 1 := by
  obtain ⟨Y, u, h, hY, hu⟩ := C135_smoothed (T := 2) (lineSolver_exact (n := 1)) lineSolver_complete (zero_le_one (α := ℝ)) id
    (X := fun i => Matrix.of fun _ _ => ![1, 1 / 2, 5] (Fin.ofNat 3 i)) (fun t ht => by
      have hd : (Matrix.of fun _ _ => (![1, 1 / 2, 5] : Fin 3 → ℝ) (Fin.ofNat 3 t) : Mat 1)
          = Matrix.diagonal fun _ => (![1, 1 / 2, 5] : Fin 3 → ℝ) (Fin.ofNat 3 t) := by
        ext i j; fin_cases i; fin_cases j; rfl
      rw [hd]
      refine Matrix.PosSemidef.diagonal fun _ => ?_
      interval_cases t <;> norm_num [Fin.ofNat])
  have d1 : ∀ A B : Mat 1, dist2 A B = |A 0 0 - B 0 0| := by
    intro A B
    simp [dist2, frob, Real.sqrt_sq_eq_abs]
  have h0 : Y 0 0 0 = 1 := by rw [hY.1]; simp
  have e1 : u 0 = 0 ∧ Y 1 = Y 0 := by
    rcases hu 0 (by norm_num) with ⟨a, b, -⟩ | ⟨-, -, c⟩
    · exact ⟨a, b⟩
    · rw [d1, h0] at c
      norm_num [Fin.ofNat] at c
  have h1 : Y 1 0 0 = 1 := by rw [e1.2]; exact h0
  have e2 : u 1 = 1 := by
    rcases hu 1 (by norm_num) with ⟨-, -, c⟩ | ⟨a, -⟩
    · rw [d1, h1] at c
      norm_num [Fin.ofNat] at c
    · exact a
  have hA := (C135_shape zero_le_one hY).1 2 le_rfl
  have hB := (C135_shape zero_le_one hY).2.1 1 (by norm_num)
  rw [d1] at hA hB
  rw [d1, h1] at hB
  refine ⟨Y, u, h, h1, ?_, e1.1, e2⟩
  norm_num [Fin.ofNat] at hA hB
  have a1 := abs_le.mp hA
  rcases abs_cases (Y 2 0 0 - 1) with ⟨a, -⟩ | ⟨a, -⟩ <;> linarith

end CovPred
