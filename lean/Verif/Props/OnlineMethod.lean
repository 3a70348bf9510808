import Verif.Spec.OnlineMethod
import Verif.Props.Online
import Verif.Props.CmIewma

/-
Property C205: the whole CM-IEWMA method can be run online.
-/
set_option linter.unusedSectionVars false
namespace CovPred

variable {τ : Type} [LinearOrder τ] {n : ℕ} {L : Type} [DecidableEq L]

/-- the experts of the online method -/
private theorem state_expert {K : ℕ} (a : CmOnline K) (x : ℕ → Vec n) (i : Fin K) :
    ∀ t, (cmState a x t).expert i = onlineState (cmArgs a.mv a.mc (a.half i)) x t
  | 0 => rfl
  | t + 1 => by
    show ((cmState a x t).expert i).step _ _ = (onlineState _ x t).step _ _
    rw [state_expert a x i t]

/-- what an expert gives -/
private theorem expertCov_eq {K : ℕ} (a : CmOnline K) (hmv : 0 < a.mv) (hmc : 0 < a.mc) {x : ℕ → Vec n} (hx : ∃ s < a.mv, x s ≠ 0) (i : Fin K)
    (hp : 0 < (a.half i).1 ∧ 0 < (a.half i).2) (t : ℕ) :
    (cmState a x t).expertCov a (x t) i = if a.mv + a.mc - 2 ≤ t then some (rowIewma a.mv a.mc (a.half i) x t) else none := by
  unfold CmState.expertCov
  rw [state_expert, online_output (cmArgs_valid hp) (fun _ => ()) x t, live_cm hp hx, live_cm hp hx, List.length_range', List.length_range']
  have e : ((t + 1 - (a.mv - 1) = t - (a.mv - 1) + 1 ∧ (cmArgs a.mv a.mc (a.half i)).minPeriodsCov - 1 ≤ ((t - (a.mv - 1) : ℕ) : Int)))
      ↔ a.mv + a.mc - 2 ≤ t := by
    simp only [cmArgs]
    omega
  by_cases h : a.mv + a.mc - 2 ≤ t
  · rw [if_pos (e.2 h), if_pos h, Option.map_some]
    rw [show t - (a.mv - 1) = t + 1 - a.mv by omega]
    rfl
  · rw [if_neg fun h2 => h (e.1 h2), if_neg h]
    rfl

variable {label : XR × XR → L} {solvers : Solvers n} {pairs : List (ℝ × ℝ)} {mv mc window T : ℕ} {tm : ℕ → τ} {x : ℕ → Vec n}

private theorem predicted_eq (h : CmSetup solvers pairs mv mc window T tm x) (lamda : ℝ) (t : ℕ) :
    (cmState (cmOnline label pairs mv mc window lamda) x t).predicted (cmOnline label pairs mv mc window lamda) (x t)
      = if mv + mc - 2 ≤ t then some (cmExpert label pairs mv mc lamda x t) else none := by
  have hpos := fun i => h.halflives _ (expertPair_mem label (pairs := pairs) i)
  have e := fun i => expertCov_eq (cmOnline label pairs mv mc window lamda) h.vola h.cov h.awake i (hpos i) t
  have hK : 0 < nExperts label pairs := by
    obtain ⟨p0, ps, hps⟩ := h.cons
    rw [hps]; exact expertPairs_pos label p0 ps
  unfold CmState.predicted
  simp only [e]
  by_cases ht : mv + mc - 2 ≤ t
  · have ht' : (cmOnline label pairs mv mc window lamda).mv + (cmOnline label pairs mv mc window lamda).mc - 2 ≤ t := ht
    simp only [if_pos ht']
    rw [if_pos ht]
    exact if_pos fun _ => rfl
  · have ht' : ¬ (cmOnline label pairs mv mc window lamda).mv + (cmOnline label pairs mv mc window lamda).mc - 2 ≤ t := ht
    simp only [if_neg ht']
    rw [if_neg ht, if_neg fun h2 => by simpa using h2 ⟨0, hK⟩]

/-- the window of the rows from `m + 1` to `t - 1`, of which `W` are kept -/
private def rowsKept (m W t : ℕ) : List ℕ := List.range' (t - min W (t - (m + 1))) (min W (t - (m + 1)))

private theorem rowsKept_succ {m W t : ℕ} (hW : 0 < W) (hmt : m < t) :
    (rowsKept m W t ++ [t]).drop ((rowsKept m W t ++ [t]).length - W) = rowsKept m W (t + 1) := by
  have e : rowsKept m W t ++ [t] = List.range' (t - min W (t - (m + 1))) (min W (t - (m + 1)) + 1) := by
    unfold rowsKept
    rw [List.range'_concat]
    congr 2
    omega
  rw [e, List.length_range', drop_range']
  unfold rowsKept
  congr 1 <;> omega

private theorem newWindow_eq (h : CmSetup solvers pairs mv mc window T tm x) (lamda : ℝ) : ∀ t,
    ((cmState (cmOnline label pairs mv mc window lamda) x t).last
      = if mv + mc - 2 < t then some (cmExpert label pairs mv mc lamda x (t - 1)) else none) ∧
    (cmState (cmOnline label pairs mv mc window lamda) x t).window
      = (rowsKept (mv + mc - 2) window t).map (fun u => ⟨cmExpert label pairs mv mc lamda x (u - 1), x u⟩) ∧
    (cmState (cmOnline label pairs mv mc window lamda) x t).newWindow (cmOnline label pairs mv mc window lamda) (x t)
      = (rowsKept (mv + mc - 2) window (t + 1)).map (fun u => ⟨cmExpert label pairs mv mc lamda x (u - 1), x u⟩) := by
  have key : ∀ t, ((cmState (cmOnline label pairs mv mc window lamda) x t).last
        = if mv + mc - 2 < t then some (cmExpert label pairs mv mc lamda x (t - 1)) else none) →
      (cmState (cmOnline label pairs mv mc window lamda) x t).window
        = (rowsKept (mv + mc - 2) window t).map (fun u => ⟨cmExpert label pairs mv mc lamda x (u - 1), x u⟩) →
      (cmState (cmOnline label pairs mv mc window lamda) x t).newWindow (cmOnline label pairs mv mc window lamda) (x t)
        = (rowsKept (mv + mc - 2) window (t + 1)).map (fun u => ⟨cmExpert label pairs mv mc lamda x (u - 1), x u⟩) := by
    intro t h1 h2
    unfold CmState.newWindow
    rw [h1]
    by_cases hmt : mv + mc - 2 < t
    · rw [if_pos hmt]
      dsimp only
      rw [h2]
      have e : ((rowsKept (mv + mc - 2) window t).map (fun u => (⟨cmExpert label pairs mv mc lamda x (u - 1), x u⟩ : PastRow n _)))
          ++ [⟨cmExpert label pairs mv mc lamda x (t - 1), x t⟩]
          = (rowsKept (mv + mc - 2) window t ++ [t]).map fun u => ⟨cmExpert label pairs mv mc lamda x (u - 1), x u⟩ := by
        rw [List.map_append]; rfl
      rw [e, List.length_map, ← List.map_drop]
      congr 1
      exact rowsKept_succ h.window_pos hmt
    · rw [if_neg hmt]
      dsimp only
      have : t + 1 - (mv + mc - 2 + 1) = 0 := by omega
      unfold rowsKept
      rw [this, Nat.min_zero]
      rfl
  intro t
  induction t with
  | zero =>
    have h1 : (cmState (cmOnline label pairs mv mc window lamda) x 0).last
        = if mv + mc - 2 < 0 then some (cmExpert label pairs mv mc lamda x (0 - 1)) else none := by rw [if_neg (by omega)]; rfl
    have h2 : (cmState (cmOnline label pairs mv mc window lamda) x 0).window
        = (rowsKept (mv + mc - 2) window 0).map (fun u => ⟨cmExpert label pairs mv mc lamda x (u - 1), x u⟩) := by
      unfold rowsKept
      rw [show 0 - (mv + mc - 2 + 1) = 0 by omega, Nat.min_zero]
      rfl
    exact ⟨h1, h2, key 0 h1 h2⟩
  | succ t ih =>
    have h1 : (cmState (cmOnline label pairs mv mc window lamda) x (t + 1)).last
        = if mv + mc - 2 < t + 1 then some (cmExpert label pairs mv mc lamda x (t + 1 - 1)) else none := by
      show (cmState (cmOnline label pairs mv mc window lamda) x t).predicted (cmOnline label pairs mv mc window lamda) (x t) = _
      rw [predicted_eq h]
      by_cases h3 : mv + mc - 2 ≤ t
      · rw [if_pos h3, if_pos (by omega)]
        rfl
      · rw [if_neg h3, if_neg (by omega)]
    exact ⟨h1, ih.2.2, key (t + 1) h1 ih.2.2⟩

private theorem sum_window (g : ℕ → ℝ) {W s : ℕ} (h : W ≤ s) :
    ∑ u ∈ Finset.Ioc (s - W) s, g u = ((List.range' (s + 1 - W) W).map g).sum := by
  rw [← List.sum_toFinset _ List.nodup_range']
  congr 1
  ext u
  rw [Finset.mem_Ioc, List.mem_toFinset, List.mem_range'_1]
  omega

/-- **C205.** The whole CM-IEWMA method (experts, window, weights, blend) can be run online: with exact solvers, the predictions of a
run on at least `window` rows after the warm-up are those of a method that goes through the rows once and keeps, between them, two counts,
two vectors of means, the variances and one matrix for each expert, the last predictions of the experts, and the last `window` rows
with what the experts had predicted for them (`Spec/OnlineMethod`). -/
theorem C205_online (h : CmSetup solvers pairs mv mc window T tm x) (hs : ∀ K, (solvers K).Exact) (hroom : mv + mc - 2 + window < T)
    (lamda : ℝ) {d : Dict τ (Mat n)}
    (hd : cmIewma label solvers (pairs.map fun p => (XR.fin p.1, XR.fin p.2)) (rowDict T tm x) mv mc lamda window = .ok d) :
    d = (List.range T).filterMap fun t =>
      ((cmState (cmOnline label pairs mv mc window lamda) x t).prediction (cmOnline label pairs mv mc window lamda) (x t)).map
        fun S => (tm t, S) := by
  obtain ⟨_, hc, rfl⟩ := (cmIewma_ok_iff label h lamda d).mp hd
  have hW : cmWindow mv mc window T = window := by unfold cmWindow; omega
  rw [hW] at hc ⊢
  set P := cmPanel label pairs mv mc lamda tm x T with hP
  have hlen : P.len = T - (mv + mc - 2) := rfl
  have hK : 0 < nExperts label pairs := by
    obtain ⟨p0, ps, hps⟩ := h.cons
    rw [hps]; exact expertPairs_pos label p0 ps
  have hpred : ∀ t < T, (cmState (cmOnline label pairs mv mc window lamda) x t).prediction (cmOnline label pairs mv mc window lamda) (x t)
      = if mv + mc - 2 + window ≤ t then
          some (blendCov (cmExpert label pairs mv mc lamda x t) (P.weightsAt (solvers _) window window (t - (mv + mc - 2))))
        else none := by
    intro t ht
    unfold CmState.prediction
    rw [predicted_eq h, (newWindow_eq h lamda t).2.2, List.length_map]
    have hl : (rowsKept (mv + mc - 2) window (t + 1)).length = min window (t + 1 - (mv + mc - 2 + 1)) := by
      unfold rowsKept; rw [List.length_range']
    rw [hl, show (cmOnline label pairs mv mc window lamda).W = window from rfl]
    by_cases h1 : mv + mc - 2 + window ≤ t
    · have h2 : min window (t + 1 - (mv + mc - 2 + 1)) = window := by omega
      rw [if_pos (by omega), if_pos h1, Option.bind_some, if_pos h2]
      congr 2
      -- the weights
      set l : List (PastRow n (nExperts label pairs)) :=
        (rowsKept (mv + mc - 2) window (t + 1)).map fun u => ⟨cmExpert label pairs mv mc lamda x (u - 1), x u⟩ with hl
      have hlik : ∀ w, logLikOf l w = P.logLik window (t - (mv + mc - 2)) w := by
        intro w
        rw [hP, cm_logLik label lamda T window h1, cmWindowLogLik, sum_window _ (by omega), logLikOf, hl, List.map_map]
        unfold rowsKept
        rw [h2]
        rfl
      have hlt : t - (mv + mc - 2) < P.len := by rw [hlen]; omega
      have hgr := hc.gram (t - (mv + mc - 2)) (by omega) hlt
      obtain ⟨w, hout⟩ := hc.solved (t - (mv + mc - 2)) (by omega) hlt
      have hw : P.weightsAt (solvers _) window window (t - (mv + mc - 2)) = w := by unfold Panel.weightsAt; rw [hout]
      have hbest := outcome_exact (P := P) hc.ok hK (a := window) (W := window) (t := t - (mv + mc - 2)) (by omega) (by omega) hlt hgr
        (hs _) hout
      have hopt := best_optimal (P := P) hc.ok hK (W := window) (t := t - (mv + mc - 2)) (by omega) hlt hgr
      rw [← hbest] at hopt
      rw [hw]
      have hex : ∃ w, Simplex w ∧ ∀ w', Simplex w' → logLikOf l w' ≤ logLikOf l w :=
        ⟨w, hopt.1, fun w' hw' => by rw [hlik, hlik]; exact hopt.2 w' hw'⟩
      unfold bestOf
      rw [dif_pos hex]
      refine optimal_unique (P := P) hc.ok (W := window) (t := t - (mv + mc - 2)) (by omega) hlt hgr ⟨hex.choose_spec.1, fun w' hw' => ?_⟩ hopt
      rw [← hlik, ← hlik]
      exact hex.choose_spec.2 w' hw'
    · rw [if_neg h1]
      by_cases h3 : mv + mc - 2 ≤ t
      · rw [if_pos h3, Option.bind_some, if_neg (by omega)]
      · rw [if_neg h3]
        rfl
  have e : ∀ N ≤ T, (List.range N).filterMap (fun t =>
      ((cmState (cmOnline label pairs mv mc window lamda) x t).prediction (cmOnline label pairs mv mc window lamda) (x t)).map
        fun S => (tm t, S))
      = (List.range' (mv + mc - 2 + window) (N - (mv + mc - 2 + window))).map fun s =>
        (tm s, blendCov (cmExpert label pairs mv mc lamda x s) (P.weightsAt (solvers _) window window (s - (mv + mc - 2)))) := by
    intro N
    induction N with
    | zero => intro _; simp
    | succ N ih =>
      intro hN
      rw [List.range_succ, List.filterMap_append, ih (by omega)]
      simp only [List.filterMap_cons, List.filterMap_nil, hpred N (by omega)]
      by_cases h1 : mv + mc - 2 + window ≤ N
      · rw [if_pos h1, show N + 1 - (mv + mc - 2 + window) = N - (mv + mc - 2 + window) + 1 by omega, List.range'_concat, List.map_append,
          show mv + mc - 2 + window + 1 * (N - (mv + mc - 2 + window)) = N by omega]
        rfl
      · rw [if_neg h1, show N + 1 - (mv + mc - 2 + window) = N - (mv + mc - 2 + window) by omega]
        simp
  exact (e T le_rfl).symm

/-- **C205.** What is kept does not grow: never more than `W` rows. -/
theorem C205_bounded {K : ℕ} (a : CmOnline K) (x : ℕ → Vec n) (t : ℕ) : (cmState a x t).window.length ≤ a.W := by
  cases t with
  | zero => exact Nat.zero_le _
  | succ t =>
    show ((cmState a x t).newWindow a (x t)).length ≤ a.W
    unfold CmState.newWindow
    split
    · exact Nat.zero_le _
    · dsimp only
      rw [List.length_drop]
      omega

private theorem cmState_congr {K : ℕ} (a : CmOnline K) {x x' : ℕ → Vec n} {t : ℕ} (h : cmState a x t = cmState a x' t) :
    ∀ k, (∀ s, t ≤ s → s < t + k → x s = x' s) → cmState a x (t + k) = cmState a x' (t + k)
  | 0, _ => h
  | k + 1, hx => by
    have ih := cmState_congr a h k fun s h1 h2 => hx s h1 (by omega)
    show (cmState a x (t + k)).step a (x (t + k)) = (cmState a x' (t + k)).step a (x' (t + k))
    rw [ih, hx (t + k) (by omega) (by omega)]

/-- **C205.** The past rows are not needed: if what is kept after `t` rows is the same for two histories (of the same length or not before
`t`, here with the same labels) and the later rows agree, the predictions for the rows from `t` on are the same. -/
theorem C205_continue {x' : ℕ → Vec n} (h : CmSetup solvers pairs mv mc window T tm x) (h' : CmSetup solvers pairs mv mc window T tm x')
    (hs : ∀ K, (solvers K).Exact) (hroom : mv + mc - 2 + window < T) (lamda : ℝ) {d d' : Dict τ (Mat n)}
    (hd : cmIewma label solvers (pairs.map fun p => (XR.fin p.1, XR.fin p.2)) (rowDict T tm x) mv mc lamda window = .ok d)
    (hd' : cmIewma label solvers (pairs.map fun p => (XR.fin p.1, XR.fin p.2)) (rowDict T tm x') mv mc lamda window = .ok d')
    {t : ℕ} (ht : t ≤ T)
    (hst : cmState (cmOnline label pairs mv mc window lamda) x t = cmState (cmOnline label pairs mv mc window lamda) x' t)
    (hx : ∀ s, t ≤ s → s < T → x s = x' s) :
    ∃ before before' later, d = before ++ later ∧ d' = before' ++ later ∧
      (∀ p ∈ before ++ before', ∃ s < t, p.1 = tm s) ∧ ∀ p ∈ later, ∃ s, t ≤ s ∧ s < T ∧ p.1 = tm s := by
  obtain ⟨k, rfl⟩ := Nat.exists_eq_add_of_le ht
  rw [C205_online h hs hroom lamda hd, C205_online h' hs hroom lamda hd']
  set a := cmOnline label pairs mv mc window lamda with ha
  have hstj : ∀ j ≤ k, cmState a x (t + j) = cmState a x' (t + j) := fun j hj =>
    cmState_congr a hst j fun s h1 h2 => hx s h1 (by omega)
  rw [List.range_add, List.filterMap_append, List.filterMap_append]
  refine ⟨_, (List.range t).filterMap fun u => ((cmState a x' u).prediction a (x' u)).map fun S => (tm u, S), _, rfl, ?_, ?_, ?_⟩
  · congr 1
    rw [List.filterMap_map, List.filterMap_map]
    refine List.filterMap_congr fun j hj => ?_
    rw [List.mem_range] at hj
    simp only [Function.comp]
    rw [hstj j (by omega), hx (t + j) (by omega) (by omega)]
  · intro p hp
    rw [List.mem_append, List.mem_filterMap, List.mem_filterMap] at hp
    rcases hp with ⟨u, hu, e⟩ | ⟨u, hu, e⟩
    all_goals
      obtain ⟨S, _, rfl⟩ := Option.map_eq_some_iff.1 e
      exact ⟨u, List.mem_range.1 hu, rfl⟩
  · intro p hp
    rw [List.mem_filterMap] at hp
    obtain ⟨u, hu, e⟩ := hp
    obtain ⟨j, hj, rfl⟩ := List.mem_map.1 hu
    obtain ⟨S, _, rfl⟩ := Option.map_eq_some_iff.1 e
    exact ⟨t + j, by omega, by have := List.mem_range.1 hj; omega, rfl⟩

end CovPred
