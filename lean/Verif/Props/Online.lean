import Verif.Spec.Online
import Verif.Props.Iewma
import Verif.Props.Examples

/-
Property C204: `iterated_ewma` (ewma.py:88-183) can be run online.
-/
set_option linter.unusedSectionVars false
namespace CovPred

variable {τ ι : Type} [DecidableEq τ] [Ix ι]

private theorem decayOf_bounds {h : ℝ} (hh : 0 < h) : 0 < decayOf h ∧ decayOf h < 1 := by
  rw [decayOf_eq]
  exact ⟨betaOf_pos h, betaOf_lt_one hh⟩

/-- one more observation -/
private theorem updated_avg {h : ℝ} (hh : 0 < h) (y : ℕ → ℝ) (n : ℕ) :
    updated h n (if n = 0 then 0 else halflifeAverage h y (n - 1)) (y n) = halflifeAverage h y n := by
  obtain ⟨h0, h1⟩ := decayOf_bounds hh
  rw [decayOf_eq] at h0 h1
  unfold updated newWeight
  rw [decayOf_eq]
  rcases n with _ | n
  · rw [if_pos rfl, halflifeAverage_eq, show emaAvg (betaOf h) y 0 = y 0 by simp [emaAvg], zero_add, pow_one, div_self (by linarith)]
    ring
  · rw [if_neg (by omega), Nat.add_sub_cancel, halflifeAverage_eq, halflifeAverage_eq, ← emaAvg_succ h0 h1]
    ring

/-- the kept numbers, from the definitions of the averages -/
private structure Inv (a : RealArgs) (T : ℕ) (x : ℕ → ι → ℝ) (t : ℕ) (s : OnlineState ι) : Prop where
  rows : s.rows = t
  mu : ∀ i, s.mu i = if t = 0 then 0 else muOf a.mean a.mu1h x (t - 1) i
  var : ∀ i, t ≠ 0 → s.var i = volSq a x (t - 1) i
  used : s.used = (live a t x).length
  nu : ∀ i, s.nu i = if s.used = 0 then 0 else muOf a.mean a.mu2h (adjAt a T x) (s.used - 1) i
  cov : ∀ p, s.cov p = if s.used = 0 then 0 else covAt a T x (s.used - 1) p

section step
variable {a : RealArgs} {T t : ℕ} {x : ℕ → ι → ℝ} {s : OnlineState ι}

private theorem newMu_eq (ha : a.Valid) (h : Inv a T x t s) (i : ι) : s.newMu a (x t) i = muOf a.mean a.mu1h x t i := by
  unfold OnlineState.newMu
  have hmu := h.mu i
  unfold muOf at hmu ⊢
  split
  · next hm =>
    simp only [hm, if_true] at hmu
    rw [hmu, h.rows]
    exact updated_avg (orElse_pos ha.vola ha.mu1) (fun k => x k i) t
  · rfl

private theorem newVar_eq (ha : a.Valid) (h : Inv a T x t s) (i : ι) : s.newVar a (x t) i = volSq a x t i := by
  unfold OnlineState.newVar
  rw [newMu_eq ha h, h.rows]
  rcases t with _ | t
  · rw [if_pos rfl]
    rfl
  · rw [if_neg (by omega), h.var i (by omega), Nat.add_sub_cancel]
    unfold updated newWeight volSq
    simp only [varSeq, cRet]
    ring

private theorem enters_iff (ha : a.Valid) (h : Inv a T x t s) :
    s.Enters a (x t) ↔ a.minPeriodsVola - 1 ≤ (t : Int) ∧ ∃ i, ¬ (vol a x t i = 0 ∧ cRet a x t i = 0) := by
  unfold OnlineState.Enters
  rw [h.rows]
  simp only [newVar_eq ha h, newMu_eq ha h]
  rfl

open Classical in
private theorem live_step (ha : a.Valid) (h : Inv a T x t s) :
    live a (t + 1) x = live a t x ++ if s.Enters a (x t) then [t] else [] := by
  unfold live
  rw [List.range_succ, List.filter_append]
  congr 1
  rw [List.filter_singleton]
  simp only [enters_iff ha h]
  by_cases hc : a.minPeriodsVola - 1 ≤ (t : Int) ∧ ∃ i, ¬ (vol a x t i = 0 ∧ cRet a x t i = 0)
  · rw [if_pos hc, decide_eq_true hc]
    rfl
  · rw [if_neg hc, decide_eq_false hc]
    rfl

private theorem live_split (a : RealArgs) {t T : ℕ} (x : ℕ → ι → ℝ) (h : t ≤ T) : ∃ l, live a T x = live a t x ++ l := by
  obtain ⟨k, rfl⟩ := Nat.exists_eq_add_of_le h
  unfold live
  rw [List.range_add, List.filter_append]
  exact ⟨_, rfl⟩

private theorem live_at (ha : a.Valid) (h : Inv a T x t s) (ht : t < T) (he : s.Enters a (x t)) : (live a T x).getD s.used 0 = t := by
  obtain ⟨l, hl⟩ := live_split a x (show t + 1 ≤ T by omega)
  rw [hl, live_step ha h, if_pos he, h.used]
  simp

private theorem adjusted_eq (ha : a.Valid) (h : Inv a T x t s) (ht : t < T) (he : s.Enters a (x t)) (i : ι) :
    s.adjusted a (x t) i = adjAt a T x s.used i := by
  unfold OnlineState.adjusted adjAt
  rw [live_at ha h ht he, newVar_eq ha h, newMu_eq ha h]
  rfl

private theorem newNu_eq (ha : a.Valid) (h : Inv a T x t s) (ht : t < T) (he : s.Enters a (x t)) (i : ι) :
    s.newNu a (x t) i = muOf a.mean a.mu2h (adjAt a T x) s.used i := by
  unfold OnlineState.newNu
  have hnu := h.nu i
  unfold muOf at hnu ⊢
  split
  · next hm =>
    simp only [hm, if_true] at hnu
    rw [hnu, adjusted_eq ha h ht he]
    exact updated_avg (orElse_pos ha.cov ha.mu2) (fun k => adjAt a T x k i) s.used
  · rfl

private theorem newCov_eq (ha : a.Valid) (h : Inv a T x t s) (ht : t < T) (he : s.Enters a (x t)) (p : ι × ι) :
    s.newCov a (x t) p = covAt a T x s.used p := by
  unfold OnlineState.newCov
  rw [h.cov, newNu_eq ha h ht he, newNu_eq ha h ht he, adjusted_eq ha h ht he, adjusted_eq ha h ht he]
  exact updated_avg ha.cov (fun k => zAt a T x k p.1 * zAt a T x k p.2) s.used

private theorem inv_step (ha : a.Valid) (h : Inv a T x t s) (ht : t < T) : Inv a T x (t + 1) (s.step a (x t)) where
  rows := by rw [OnlineState.step, h.rows]
  mu i := by rw [if_neg (by omega), Nat.add_sub_cancel]; exact newMu_eq ha h i
  var i _ := by rw [Nat.add_sub_cancel]; exact newVar_eq ha h i
  used := by
    rw [live_step ha h, OnlineState.step, List.length_append, ← h.used]
    split <;> rfl
  nu i := by
    by_cases he : s.Enters a (x t)
    · simp only [OnlineState.step, if_pos he]
      rw [if_neg (by omega), Nat.add_sub_cancel, newNu_eq ha h ht he]
    · simp only [OnlineState.step, if_neg he]
      exact h.nu i
  cov p := by
    by_cases he : s.Enters a (x t)
    · simp only [OnlineState.step, if_pos he]
      rw [if_neg (by omega), Nat.add_sub_cancel, newCov_eq ha h ht he]
    · simp only [OnlineState.step, if_neg he]
      exact h.cov p

private theorem output_eq (ha : a.Valid) (h : Inv a T x t s) (ht : t < T) (he : s.Enters a (x t)) (tm : ℕ → τ) :
    s.output a (x t) (tm t) = if a.minPeriodsCov - 1 ≤ (s.used : Int) then some (itemAt a T tm x s.used) else none := by
  unfold OnlineState.output
  simp only [he, true_and]
  split
  · congr 1
    unfold itemAt sigmaAt meanAt
    simp only [live_at ha h ht he, newVar_eq ha h, newMu_eq ha h, newNu_eq ha h ht he, newCov_eq ha h ht he]
    rfl
  · rfl

end step

private theorem inv_all {a : RealArgs} (ha : a.Valid) (T : ℕ) (x : ℕ → ι → ℝ) : ∀ t ≤ T, Inv a T x t (onlineState a x t)
  | 0, _ => ⟨rfl, fun i => rfl, fun i h => absurd rfl h, rfl, fun i => rfl, fun p => rfl⟩
  | t + 1, ht => inv_step ha (inv_all ha T x t (by omega)) (by omega)

private theorem rowsFrom_succ (m : Int) (k : ℕ) : rowsFrom m (k + 1) = rowsFrom m k ++ if m - 1 ≤ (k : Int) then [k] else [] := by
  unfold rowsFrom
  rw [List.range_succ, List.filter_append, List.filter_singleton]
  congr 1
  by_cases h : m - 1 ≤ (k : Int)
  · rw [if_pos h, decide_eq_true h]
    rfl
  · rw [if_neg h, decide_eq_false h]
    rfl

private theorem outputs_eq {a : RealArgs} (ha : a.Valid) (T : ℕ) (tm : ℕ → τ) (x : ℕ → ι → ℝ) : ∀ t ≤ T,
    (List.range t).filterMap (fun u => (onlineState a x u).output a (x u) (tm u)) =
      (rowsFrom a.minPeriodsCov (live a t x).length).map (itemAt a T tm x)
  | 0, _ => by simp [live, rowsFrom]
  | t + 1, ht => by
    have h := inv_all ha T x t (by omega)
    rw [List.range_succ, List.filterMap_append, outputs_eq ha T tm x t (by omega), live_step ha h]
    by_cases he : (onlineState a x t).Enters a (x t)
    · rw [if_pos he, List.length_append, List.length_singleton, rowsFrom_succ, List.map_append]
      congr 1
      rw [← h.used]
      simp only [List.filterMap_cons, List.filterMap_nil, output_eq ha h (by omega) he]
      split
      · next h1 => split at h1 <;> simp_all
      · next h1 => split at h1 <;> simp_all
    · rw [if_neg he, List.append_nil]
      have : (onlineState a x t).output a (x t) (tm t) = none := by
        unfold OnlineState.output
        rw [if_neg fun h2 => he h2.1]
      simp [this]

open Classical in
/-- the result of a row in the online method -/
theorem online_output {a : RealArgs} (ha : a.Valid) (tm : ℕ → τ) (x : ℕ → ι → ℝ) (t : ℕ) :
    (onlineState a x t).output a (x t) (tm t) =
      if (live a (t + 1) x).length = (live a t x).length + 1 ∧ a.minPeriodsCov - 1 ≤ ((live a t x).length : Int)
      then some (itemAt a (t + 1) tm x (live a t x).length) else none := by
  have h := inv_all ha (t + 1) x t (by omega)
  rw [live_step ha h]
  by_cases he : (onlineState a x t).Enters a (x t)
  · rw [output_eq ha h (by omega) he, if_pos he, h.used]
    simp
  · rw [if_neg he, if_neg (by simp)]
    unfold OnlineState.output
    rw [if_neg fun h2 => he h2.1]

/-- **C204.** `iterated_ewma` can be run online: its results are those of a method that goes through the rows once and keeps two counts, two
vectors of means, the variances and one matrix between them (`Spec/Online`). There is an `IndexError` if no row enters the covariance. -/
theorem C204_online [Nonempty ι] {f : Frame τ ι XR} {a : RealArgs} (ha : a.Valid) {T : ℕ} {tm : ℕ → τ}
    (hd : DistinctTimes T tm) {x : ℕ → ι → ℝ} (hf : Represents f a.nanToNum T tm x) :
    iteratedEwma f a.toArgs =
      if (onlineState a x T).used = 0 then .error .indexError
      else .ok ((List.range T).filterMap fun t => (onlineState a x t).output a (x t) (tm t)) := by
  rw [C57_functional_correctness ha hd hf, outputs_eq ha T tm x T le_rfl, (inv_all ha T x T le_rfl).used]
  by_cases hl : live a T x = []
  · rw [if_pos hl, if_pos (by rw [hl]; rfl)]
  · rw [if_neg hl, if_neg (by rwa [List.length_eq_zero_iff])]

/-- the results from a row on, computed from what is kept -/
private theorem state_congr (a : RealArgs) {x x' : ℕ → ι → ℝ} {t : ℕ} (h : onlineState a x t = onlineState a x' t) :
    ∀ k, (∀ s, t ≤ s → s < t + k → x s = x' s) → onlineState a x (t + k) = onlineState a x' (t + k)
  | 0, _ => h
  | k + 1, hx => by
    have ih := state_congr a h k fun s h1 h2 => hx s h1 (by omega)
    show (onlineState a x (t + k)).step a (x (t + k)) = (onlineState a x' (t + k)).step a (x' (t + k))
    rw [ih, hx (t + k) (by omega) (by omega)]

/-- **C204.** Two tables with the same kept numbers after `t` rows and the same rows from then on: either both calls raise `IndexError`, or both
succeed, and the results of the rows from `t` on are the same, whatever the first rows were. -/
theorem C204_continue [Nonempty ι] {f f' : Frame τ ι XR} {a : RealArgs} (ha : a.Valid) {T t : ℕ} {tm : ℕ → τ}
    (hd : DistinctTimes T tm) {x x' : ℕ → ι → ℝ} (hf : Represents f a.nanToNum T tm x) (hf' : Represents f' a.nanToNum T tm x') (ht : t ≤ T)
    (hs : onlineState a x t = onlineState a x' t) (hx : ∀ s, t ≤ s → s < T → x s = x' s) :
    (iteratedEwma f a.toArgs = .error .indexError ∧ iteratedEwma f' a.toArgs = .error .indexError) ∨
    ∃ before before' later, iteratedEwma f a.toArgs = .ok (before ++ later) ∧ iteratedEwma f' a.toArgs = .ok (before' ++ later) ∧
      (∀ r ∈ before ++ before', ∃ s < t, r.time = tm s) ∧ ∀ r ∈ later, ∃ s, t ≤ s ∧ s < T ∧ r.time = tm s := by
  obtain ⟨k, rfl⟩ := Nat.exists_eq_add_of_le ht
  rw [C204_online ha hd hf, C204_online ha hd hf']
  have hst : ∀ j ≤ k, onlineState a x (t + j) = onlineState a x' (t + j) := fun j hj =>
    state_congr a hs j fun s h1 h2 => hx s h1 (by omega)
  rw [hst k le_rfl]
  split
  · exact .inl ⟨rfl, rfl⟩
  · have htime : ∀ (y : ℕ → ι → ℝ) (u : ℕ) (r : IEWMA τ ι XR), (onlineState a y u).output a (y u) (tm u) = some r → r.time = tm u := by
      intro y u r h
      unfold OnlineState.output at h
      split at h
      · cases h; rfl
      · cases h
    refine .inr ⟨(List.range t).filterMap fun u => (onlineState a x u).output a (x u) (tm u),
      (List.range t).filterMap fun u => (onlineState a x' u).output a (x' u) (tm u),
      ((List.range k).map (t + ·)).filterMap fun u => (onlineState a x u).output a (x u) (tm u), ?_, ?_, ?_, ?_⟩
    · rw [List.range_add, List.filterMap_append]
    · rw [List.range_add, List.filterMap_append]
      congr 2
      refine List.filterMap_congr fun u hu => ?_
      obtain ⟨j, hj, rfl⟩ := List.mem_map.1 hu
      rw [List.mem_range] at hj
      rw [hst j hj.le, hx _ (by omega) (by omega)]
    · intro r hr
      rw [List.mem_append, List.mem_filterMap, List.mem_filterMap] at hr
      rcases hr with ⟨u, hu, h⟩ | ⟨u, hu, h⟩
      · exact ⟨u, List.mem_range.1 hu, htime _ _ _ h⟩
      · exact ⟨u, List.mem_range.1 hu, htime _ _ _ h⟩
    · intro r hr
      obtain ⟨u, hu, h⟩ := List.mem_filterMap.1 hr
      obtain ⟨j, hj, rfl⟩ := List.mem_map.1 hu
      rw [List.mem_range] at hj
      exact ⟨t + j, by omega, by omega, htime _ _ _ h⟩

/-! ### the results are not enough -/

namespace OnlineEx

/-- half-lives of one row, no minimal numbers of rows -/
noncomputable def args : RealArgs := { volaHalflife := 1, covHalflife := 1, minPeriodsVola := 1, minPeriodsCov := 1 }

theorem args_valid : args.Valid := ⟨by norm_num [args], by norm_num [args], by simp [args], by simp [args]⟩

/-- two returns of 1 and then 1 and -1 -/
noncomputable def steady (t : ℕ) (i : Fin 2) : ℝ := if t < 2 then 1 else if i = 0 then 1 else -1

/-- a return of `√3`, one of 0, and then 1 and -1 -/
noncomputable def jump (t : ℕ) (i : Fin 2) : ℝ := if t = 0 then Real.sqrt 3 else if t = 1 then 0 else if i = 0 then 1 else -1

private theorem weight (n : ℕ) : newWeight (decayOf 1) n = (1 / 2) / (1 - (1 / 2) ^ (n + 1)) := by
  unfold newWeight decayOf
  norm_num

/-- a state of these examples -/
noncomputable def st (k : ℕ) (v c : ℝ) : OnlineState (Fin 2) := { rows := k, var := fun _ => v, used := k, cov := fun _ => c }

private theorem mu0 (s : OnlineState (Fin 2)) (x : Fin 2 → ℝ) (i : Fin 2) : s.newMu args x i = 0 := by
  simp [OnlineState.newMu, args]

private theorem nu0 (s : OnlineState (Fin 2)) (x : Fin 2 → ℝ) (i : Fin 2) : s.newNu args x i = 0 := by
  simp [OnlineState.newNu, args]

private theorem var0 (s : OnlineState (Fin 2)) (x : Fin 2 → ℝ) (i : Fin 2) : s.newVar args x i =
    if s.rows = 0 then x i ^ 2 else s.var i + newWeight (decayOf 1) s.rows * (x i ^ 2 - s.var i) := by
  simp only [OnlineState.newVar, mu0, sub_zero]
  rfl

private theorem adj0 (s : OnlineState (Fin 2)) (x : Fin 2 → ℝ) (i : Fin 2) : s.adjusted args x i = x i / Real.sqrt (s.newVar args x i) := by
  simp only [OnlineState.adjusted, mu0, sub_zero]
  rfl

private theorem cov0 (s : OnlineState (Fin 2)) (x : Fin 2 → ℝ) (p : Fin 2 × Fin 2) : s.newCov args x p =
    s.cov p + newWeight (decayOf 1) s.used * (x p.1 / Real.sqrt (s.newVar args x p.1) * (x p.2 / Real.sqrt (s.newVar args x p.2)) - s.cov p) := by
  simp only [OnlineState.newCov, nu0, sub_zero, adj0]
  rfl

private theorem enters0 (s : OnlineState (Fin 2)) (x : Fin 2 → ℝ) (h : 0 < s.newVar args x 0) : s.Enters args x :=
  ⟨by simp [args], 0, fun h0 => (Real.sqrt_pos.2 h).ne' h0.1⟩

/-- one more row -/
private theorem step0 {s : OnlineState (Fin 2)} {x : Fin 2 → ℝ} {v c : ℝ} (hv : ∀ i, s.newVar args x i = v) (h0 : 0 < v)
    (hc : ∀ p, s.newCov args x p = c) (hr : s.rows = s.used) : s.step args x = st (s.rows + 1) v c := by
  have he := enters0 s x (by rw [hv]; exact h0)
  unfold OnlineState.step st
  simp only [if_pos he, hr]
  congr 1
  · funext i; exact hv i
  · funext p; exact hc p

theorem steady_one : onlineState args steady 1 = st 1 1 1 := by
  have hv : ∀ i, (onlineState args steady 0).newVar args (steady 0) i = 1 := fun i => by rw [var0]; simp [onlineState, steady]
  exact step0 hv one_pos (fun p => by rw [cov0, hv, hv, weight]; norm_num [onlineState, steady]) rfl

theorem steady_two : onlineState args steady 2 = st 2 1 1 := by
  show (onlineState args steady 1).step args (steady 1) = _
  rw [steady_one]
  have hv : ∀ i, (st 1 1 1).newVar args (steady 1) i = 1 := fun i => by rw [var0, weight]; simp [st, steady]
  exact step0 hv one_pos (fun p => by rw [cov0, hv, hv, weight]; simp [st, steady]) rfl

theorem jump_one : onlineState args jump 1 = st 1 3 1 := by
  have hv : ∀ i, (onlineState args jump 0).newVar args (jump 0) i = 3 := fun i => by rw [var0]; simp [onlineState, jump]
  exact step0 hv (by norm_num) (fun p => by rw [cov0, hv, hv, weight]; norm_num [onlineState, jump]) rfl

theorem jump_two : onlineState args jump 2 = st 2 1 (1 / 3) := by
  show (onlineState args jump 1).step args (jump 1) = _
  rw [jump_one]
  have hv : ∀ i, (st 1 3 1).newVar args (jump 1) i = 1 := fun i => by rw [var0, weight]; norm_num [st, jump]
  exact step0 hv one_pos (fun p => by rw [cov0, hv, hv, weight]; norm_num [st, jump]) rfl

/-- the first two rows of `steady` with the opposite sign -/
noncomputable def flipped (t : ℕ) (i : Fin 2) : ℝ := if t < 2 then -1 else if i = 0 then 1 else -1

theorem flipped_one : onlineState args flipped 1 = st 1 1 1 := by
  have hv : ∀ i, (onlineState args flipped 0).newVar args (flipped 0) i = 1 := fun i => by rw [var0]; simp [onlineState, flipped]
  exact step0 hv one_pos (fun p => by rw [cov0, hv, hv, weight]; norm_num [onlineState, flipped]) rfl

theorem flipped_two : onlineState args flipped 2 = st 2 1 1 := by
  show (onlineState args flipped 1).step args (flipped 1) = _
  rw [flipped_one]
  have hv : ∀ i, (st 1 1 1).newVar args (flipped 1) i = 1 := fun i => by rw [var0, weight]; simp [st, flipped]
  exact step0 hv one_pos (fun p => by rw [cov0, hv, hv, weight]; norm_num [st, flipped]) rfl

/-- The hypotheses of `C204_continue` are met by two tables whose first rows differ. -/
example : (iteratedEwma (finFrame 3 (fun t : ℕ => t) steady) args.toArgs = .error .indexError ∧
      iteratedEwma (finFrame 3 (fun t : ℕ => t) flipped) args.toArgs = .error .indexError) ∨
    ∃ before before' later, iteratedEwma (finFrame 3 (fun t : ℕ => t) steady) args.toArgs = .ok (before ++ later) ∧
      iteratedEwma (finFrame 3 (fun t : ℕ => t) flipped) args.toArgs = .ok (before' ++ later) ∧
      (∀ r ∈ before ++ before', ∃ s < 2, r.time = s) ∧ ∀ r ∈ later, ∃ s, 2 ≤ s ∧ s < 3 ∧ r.time = s :=
  C204_continue (x := steady) (x' := flipped) args_valid (fun j k _ _ h => h) ⟨fun t => finRow (steady t), rfl, fun t _ i => .inl (by simp [finRow])⟩
    ⟨fun t => finRow (flipped t), rfl, fun t _ i => .inl (by simp [finRow])⟩ (by norm_num) (by rw [steady_two, flipped_two])
    fun s h1 h2 => by
      obtain rfl : s = 2 := by omega
      funext i; simp [steady, flipped]

/-- a result with volatilities 1 -/
noncomputable def item (t : ℕ) (C : Fin 2 × Fin 2 → ℝ) : IEWMA ℕ (Fin 2) XR where
  time := t
  mean := finRow fun _ => 0
  covariance := Arr.ofFn fun p => XR.fin (C p)
  volatility := finRow fun _ => 1

/-- the covariance of the examples -/
noncomputable def two (d o : ℝ) (p : Fin 2 × Fin 2) : ℝ := if p.1 = p.2 then d else o

private theorem output0 {s : OnlineState (Fin 2)} {x : Fin 2 → ℝ} {d o : ℝ} (hv : ∀ i, s.newVar args x i = 1) (hd : 0 < d)
    (hc : ∀ p, s.newCov args x p = two d o p) (t : ℕ) : s.output args x t = some (item t (two 1 (o / d))) := by
  have he := enters0 s x (by rw [hv]; exact one_pos)
  unfold OnlineState.output
  rw [if_pos ⟨he, by simp [args]⟩]
  unfold item
  simp only [hv, hc, Real.sqrt_one]
  congr 2
  congr 1
  funext p
  have e : ∀ i : Fin 2, two d o (i, i) = d := fun i => if_pos rfl
  rw [e, e, if_neg (by simp [hd.ne']), Real.mul_self_sqrt hd.le]
  unfold two
  split
  · rw [div_self hd.ne']; norm_num
  · norm_num

private theorem some_output {s : OnlineState (Fin 2)} {x : Fin 2 → ℝ} (h : 0 < s.newVar args x 0) (t : ℕ) :
    ∃ r, s.output args x t = some r := by
  unfold OnlineState.output
  rw [if_pos ⟨enters0 s x h, by simp [args]⟩]
  exact ⟨_, rfl⟩

theorem run_three {x : ℕ → Fin 2 → ℝ} {first last next : IEWMA ℕ (Fin 2) XR} (hu : (onlineState args x 3).used ≠ 0)
    (h0 : (onlineState args x 0).output args (x 0) 0 = some first) (h1 : (onlineState args x 1).output args (x 1) 1 = some last)
    (h2 : (onlineState args x 2).output args (x 2) 2 = some next) :
    iteratedEwma (finFrame 3 (fun t => t) x) args.toArgs = .ok [first, last, next] := by
  have hrep : Represents (finFrame 3 (fun t : ℕ => t) x) args.nanToNum 3 (fun t => t) x := ⟨fun t => finRow (x t), rfl, fun t _ i => .inl (by simp [finRow])⟩
  rw [C204_online args_valid (fun j k _ _ h => h) hrep, if_neg hu]
  simp [List.range_succ, h0, h1, h2]

end OnlineEx

open OnlineEx in
/-- **C204.** The last result is not enough to go on from: two tables of three rows, with the same last row and with the same result (mean,
covariance and volatility) for the row before, that give different results for the last row. -/
theorem C204_results_not_enough : ∃ (a : RealArgs) (x x' : ℕ → Fin 2 → ℝ) (first first' last next next' : IEWMA ℕ (Fin 2) XR),
    a.Valid ∧ x 2 = x' 2 ∧
    iteratedEwma (finFrame 3 (fun t => t) x) a.toArgs = .ok [first, last, next] ∧
    iteratedEwma (finFrame 3 (fun t => t) x') a.toArgs = .ok [first', last, next'] ∧ next ≠ next' := by
  have s0 : ∀ i, (onlineState args steady 0).newVar args (steady 0) i = 1 := fun i => by rw [var0]; simp [onlineState, steady]
  have j0 : ∀ i, (onlineState args jump 0).newVar args (jump 0) i = 3 := fun i => by rw [var0]; simp [onlineState, jump]
  have s1 : ∀ i, (onlineState args steady 1).newVar args (steady 1) i = 1 := fun i => by
    rw [steady_one, var0, weight]; simp [st, steady]
  have j1 : ∀ i, (onlineState args jump 1).newVar args (jump 1) i = 1 := fun i => by
    rw [jump_one, var0, weight]; norm_num [st, jump]
  have s2 : ∀ i, (onlineState args steady 2).newVar args (steady 2) i = 1 := fun i => by
    rw [steady_two, var0, weight]; fin_cases i <;> norm_num [st, steady]
  have j2 : ∀ i, (onlineState args jump 2).newVar args (jump 2) i = 1 := fun i => by
    rw [jump_two, var0, weight]; fin_cases i <;> norm_num [st, jump]
  obtain ⟨f, hf⟩ := some_output (s := onlineState args steady 0) (x := steady 0) (by rw [s0]; exact one_pos) 0
  obtain ⟨f', hf'⟩ := some_output (s := onlineState args jump 0) (x := jump 0) (by rw [j0]; norm_num) 0
  refine ⟨args, steady, jump, f, f', item 1 (two 1 1), item 2 (two 1 (-1 / 7 / 1)), item 2 (two 1 (-3 / 7 / (5 / 7))), args_valid, ?_, ?_, ?_, ?_⟩
  · funext i; simp [steady, jump]
  · refine run_three ?_ hf ?_ ?_
    · show ((onlineState args steady 2).step args (steady 2)).used ≠ 0
      simp only [OnlineState.step, if_pos (enters0 _ _ (by rw [s2]; exact one_pos))]
      omega
    · have := output0 (o := 1) s1 one_pos (fun p => by
        rw [cov0, s1, s1, steady_one, weight]; unfold two; split <;> norm_num [st, steady]) 1
      rwa [div_self one_ne_zero] at this
    · exact output0 s2 one_pos (fun p => by
        rw [cov0, s2, s2, steady_two, weight]
        obtain ⟨i, k⟩ := p
        fin_cases i <;> fin_cases k <;> norm_num [st, steady, two]) 2
  · refine run_three ?_ hf' ?_ ?_
    · show ((onlineState args jump 2).step args (jump 2)).used ≠ 0
      simp only [OnlineState.step, if_pos (enters0 _ _ (by rw [j2]; exact one_pos))]
      omega
    · have := output0 (d := 1 / 3) (o := 1 / 3) j1 (by norm_num) (fun p => by
        rw [cov0, j1, j1, jump_one, weight]; unfold two; split <;> norm_num [st, jump]) 1
      rwa [div_self (by norm_num)] at this
    · exact output0 j2 (by norm_num) (fun p => by
        rw [cov0, j2, j2, jump_two, weight]
        obtain ⟨i, k⟩ := p
        fin_cases i <;> fin_cases k <;> norm_num [st, jump, two]) 2
  · intro h
    have := congrArg (fun r : IEWMA ℕ (Fin 2) XR => r.covariance (0, 1)) h
    simp only [item, Arr.get_ofFn] at this
    rw [XR.fin_inj] at this
    norm_num [two] at this

end CovPred
