import Verif.Lemmas.SolveCall
import Verif.Lemmas.FromSigmas
import Verif.Props.Schedule

/-
Properties C133 and C134 of `solve` (combination.py:203-266) for every integer `window` and every order of the index.
-/
set_option linter.unusedSectionVars false
namespace CovPred

variable {τ : Type} [LinearOrder τ] {n K : ℕ}

/-- the times `solve` can give results for: those of all predictions but the first -/
def Comb.solveIndex (c : Comb τ n K) : List τ := (c.rows.map Row.time).tail

theorem shiftRows_times (rows : List (Row τ n K)) : (shiftRows rows).map Row.time = (rows.map Row.time).tail := by
  unfold shiftRows
  rw [List.map_zipWith]
  rw [← List.map_tail]
  apply List.ext_getElem
  · simp
  · intro i h1 h2
    simp

theorem shiftRows_length (c : Comb τ n K) : (shiftRows c.rows).length = c.solveIndex.length := by
  unfold Comb.solveIndex
  rw [← shiftRows_times, List.length_map]

theorem obs_times {returns : Dict τ (Vec n)} {rows : List (Row τ n K)} {obs : List (Obs τ n K)}
    (h : rows.mapM (obsOf returns) = .ok obs) : obs.map Obs.time = rows.map Row.time := by
  rw [mapM_ok_iff_forall₂] at h
  induction h with
  | nil => rfl
  | cons h1 _ ih =>
    rw [List.map_cons, List.map_cons, ih]
    congr 1
    unfold obsOf at h1
    split at h1
    · cases h1
    · cases h1; rfl

/-- The two forms of the preparation agree when `truncate` succeeds for all windows. -/
theorem solvePrepZ_ok (c : Comb τ n K) (window : Option ℕ) (times : Option (List τ)) (hnd : c.solveIndex.Nodup)
    (htr : ∀ (obs : List (Obs τ n K)) ts, obs.map Obs.time = c.solveIndex → ts.Sublist c.solveIndex →
      ∀ ab ∈ windowEnds (effWindow window c.solveIndex.length) ts,
        truncateZ obs ab.1 ab.2 = .ok (truncA obs ab.1 ab.2)) :
    solvePrepZ c (window.map fun w : ℕ => (w : Int)) times
      = (solvePrep c window times).map fun p => ((p.1 : Int), p.2) := by
  unfold solvePrepZ solvePrep
  dsimp only
  rw [shiftRows_length, effWindowZ_nat, cappedWindow_eq]
  set w := effWindow window c.solveIndex.length with hw
  rcases h1 : (shiftRows c.rows).mapM (obsOf c.returns) with e | obs
  · rfl
  rw [ok_bind, ok_bind]
  have hobs : obs.map Obs.time = c.solveIndex := by rw [obs_times h1, shiftRows_times]; rfl
  rw [hobs, solveTimesZ_nat]
  rcases h2 : solveTimes c.solveIndex w times with e | ts
  · rfl
  rw [ok_bind, ok_bind]
  rcases h3 : prodBs obs ts with e | prods
  · rfl
  rw [ok_bind, ok_bind]
  have hwle : w ≤ c.solveIndex.length := effWindow_le window _
  have hsub := solveTimes_sublist hwle h2
  by_cases hw0 : w = 0
  · have hidx : c.solveIndex = [] := by
      by_contra hne
      have := effWindow_pos window (N := c.solveIndex.length) (List.length_pos_iff.mpr hne)
      omega
    have hts : ts = [] := List.sublist_nil.mp (hidx ▸ hsub)
    rw [windowEndsZ_nonpos ts (by omega) (fun _ => hts)]
    simp only [hw0, if_true]
    rfl
  · have hkeys := prodBs_keys h3
    have hndts : ts.Nodup := hnd.sublist hsub
    have hnde : ((windowEnds w ts).map Prod.snd).Nodup := by
      rw [windowEnds_snd]; exact hndts.sublist (List.drop_sublist _ _)
    rw [windowEndsZ_nat (by omega), ok_bind, if_neg hw0]
    rw [dictOf_nodup _ (by rw [List.map_map]; exact hnde)]
    have hchol : ((windowEnds w ts).map fun ab => (ab.2, labelSlice prods ab.1 ab.2)).mapM cholItem
        = (pChols w ts prods).map fun cs => List.zipWith (fun ab C => (ab.2, C)) (windowEnds w ts) cs := by
      unfold pChols
      have hne : ∀ ab ∈ windowEnds w ts, labelSlice prods ab.1 ab.2 ≠ [] := by
        intro ab hab
        exact labelSlice_ne_nil (w := w) (by rw [hkeys]; exact hndts) (by rw [hkeys]; exact hab)
      clear_value w
      clear htr hnde hsub hwle h2
      generalize windowEnds w ts = ends at hne
      induction ends with
      | nil => rfl
      | cons ab ends ih =>
        have ih := ih fun q hq => hne q (List.mem_cons_of_mem _ hq)
        have h0 := hne ab List.mem_cons_self
        rw [List.map_cons, List.mapM_cons, List.mapM_cons, ih]
        simp only [cholItem, cholSum, if_neg h0]
        rcases chol? (labelSlice prods ab.1 ab.2).sum with e | C
        · rfl
        · rw [ok_bind, ok_bind]
          generalize (List.mapM _ ends : Except Err (List (Mat K))) = R
          rcases R with e | Cs
          · rfl
          · rfl
    rw [hchol]
    rcases h4 : pChols w ts prods with e | cs
    · rfl
    have hlen : cs.length = (windowEnds w ts).length := by
      unfold pChols at h4
      rw [mapM_ok_iff_forall₂] at h4
      exact h4.length_eq.symm
    have htr' := htr obs ts hobs hsub
    have hA : (windowEnds w ts).mapM (truncItem obs)
        = .ok ((windowEnds w ts).map fun ab => (ab.2, truncA obs ab.1 ab.2)) := by
      apply mapM_ok_of
      intro ab hab
      unfold truncItem
      rw [htr' ab hab]
      rfl
    show (do
        let As ← (windowEnds w ts).mapM (truncItem obs)
        let ps ← (dictOf As).mapM (pCholOf (List.zipWith (fun (ab : τ × τ) C => (ab.2, C)) (windowEnds w ts) cs))
        pure ((w : Int), ps)) = _
    rw [hA, ok_bind, dictOf_nodup _ (by rw [List.map_map]; exact hnde), zip_lookup hnde hlen]
    rfl

theorem solveCall_of_prep {c : Comb τ n K} {window : Option ℕ} {times : Option (List τ)}
    (h : solvePrepZ c (window.map fun w : ℕ => (w : Int)) times
      = (solvePrep c window times).map fun p => ((p.1 : Int), p.2)) (solver : Solver n K) :
    c.solveCall solver (window.map fun w : ℕ => (w : Int)) times = c.solve solver window times := by
  unfold Comb.solveCall Comb.solve
  rw [h]
  rcases solvePrep c window times with e | ⟨w, ps⟩ <;> rfl

/-- the ends of a window in a list that is ordered by `R` -/
theorem windowEnds_rel {R : τ → τ → Prop} {w : ℕ} {ts : List τ} (h : ts.Pairwise R) {ab : τ × τ}
    (hab : ab ∈ windowEnds w ts) : ab.1 = ab.2 ∨ R ab.1 ab.2 := by
  obtain ⟨i, hi, rfl⟩ := mem_windowEnds hab
  rcases Nat.eq_zero_or_pos (w - 1) with h0 | h0
  · left; simp only [h0, Nat.add_zero]
  · right; exact List.pairwise_iff_getElem.mp h i (i + (w - 1)) (by omega) hi (by omega)

/-- **C133.** With an increasing index, `solve` with the integer `w ≥ 0` (or `None`) as `window` is the `solve` the
theorems C22-C40, C61, C70 and C127-C132 are about. -/
theorem C133_natural_window (c : Comb τ n K) (hinc : c.solveIndex.Pairwise (· < ·)) (solver : Solver n K)
    (window : Option ℕ) (times : Option (List τ)) :
    c.solveCall solver (window.map fun w : ℕ => (w : Int)) times = c.solve solver window times := by
  apply solveCall_of_prep
  apply solvePrepZ_ok c window times (hinc.imp fun h => h.ne)
  intro obs ts hobs hsub ab hab
  unfold truncateZ
  have h1 : (obs.map Obs.time).Pairwise (· ≤ ·) := by rw [hobs]; exact hinc.imp fun h => h.le
  have h2 : ab.1 ≤ ab.2 := by
    rcases windowEnds_rel (hinc.sublist hsub) hab with h | h
    · exact h.le
    · exact h.le
  rw [if_neg (by tauto), if_neg (not_lt.mpr h2)]

theorem gives_solveIndex {P : Panel τ n K} {returns : Dict τ (Vec n)} {c : Comb τ n K} (h : P.Gives returns c) :
    c.solveIndex = (List.range' 1 (P.len - 1)).map P.time := by
  unfold Comb.solveIndex
  rw [h.eq]
  unfold Panel.comb
  rw [List.map_map, ← List.map_tail]
  show (List.range P.len).tail.map P.time = _
  congr 1
  rw [List.range_eq_range', List.tail_range']

/-- **C133.** In particular for the objects built from a panel of experts. -/
theorem C133_panel {P : Panel τ n K} {returns : Dict τ (Vec n)} {c : Comb τ n K} (h : P.Gives returns c)
    (solver : Solver n K) (window : Option ℕ) (times : Option (List τ)) :
    c.solveCall solver (window.map fun w : ℕ => (w : Int)) times = c.solve solver window times := by
  apply C133_natural_window
  rw [gives_solveIndex h, List.pairwise_map]
  refine List.Pairwise.imp_of_mem ?_ List.pairwise_lt_range'
  intro s t hs ht hst
  rw [List.mem_range'_1] at ht
  exact h.ok.time_lt s t hst (by omega)

theorem prodBs_error {obs : List (Obs τ n K)} {ts : List τ} {e : Err} (h : prodBs obs ts = .error e) : e = .keyError := by
  unfold prodBs at h
  obtain ⟨t, _, ht⟩ := mapM_error _ _ _ h
  split at ht
  · cases ht; rfl
  · cases ht

theorem solveTimesZ_error {index : List τ} {w : Int} {times : Option (List τ)} {e : Err}
    (h : solveTimesZ index w times = .error e) : e = .keyError ∨ e = .indexError ∨ e = .assertionError := by
  rcases times with _ | _ | ⟨t, ts⟩
  · cases h
  · cases h; simp
  · unfold solveTimesZ at h
    dsimp only at h
    split at h
    · split at h
      · cases h
      · cases h; simp
    · cases h; simp

/-- **C133.** A negative `window` never gives a result: `solve` raises before its first item (`IndexError`, unless a
return or a requested time is missing or the requested times are not consecutive). -/
theorem C133_negative_window (c : Comb τ n K) (solver : Solver n K) (w : Int) (hw : w < 0) (times : Option (List τ)) :
    ∃ e, c.solveCall solver (some w) times = ⟨[], some e⟩ ∧ (e = .keyError ∨ e = .indexError ∨ e = .assertionError) := by
  have key : ∃ e, solvePrepZ c (some w) times = .error e ∧ (e = .keyError ∨ e = .indexError ∨ e = .assertionError) := by
    unfold solvePrepZ
    dsimp only
    rw [effWindowZ_neg hw]
    rcases h1 : (shiftRows c.rows).mapM (obsOf c.returns) with e | obs
    · refine ⟨e, rfl, Or.inl ?_⟩
      obtain ⟨row, _, hrow⟩ := mapM_error _ _ _ h1
      unfold obsOf at hrow
      split at hrow
      · cases hrow; rfl
      · cases hrow
    rw [ok_bind]
    rcases h2 : solveTimesZ (obs.map Obs.time) w times with e | ts
    · exact ⟨e, rfl, solveTimesZ_error h2⟩
    rw [ok_bind]
    rcases h3 : prodBs obs ts with e | prods
    · exact ⟨e, rfl, Or.inl (prodBs_error h3)⟩
    rw [ok_bind, windowEndsZ_nonpos ts hw.le (fun h => absurd h hw.ne)]
    exact ⟨_, rfl, by simp⟩
  obtain ⟨e, h1, h2⟩ := key
  refine ⟨e, ?_, h2⟩
  unfold Comb.solveCall
  rw [h1]

theorem pySlice_empty {A : Type} (l : List A) (z : ℕ) (a : Int) (ha : (z : Int) ≤ a) : pySlice l a (z : Int) = [] := by
  unfold pySlice
  dsimp only
  rw [if_neg (by omega : ¬ ((z : Int) < 0)), if_neg (by omega : ¬ (a < 0))]
  apply List.drop_eq_nil_of_le
  rw [List.length_take]
  omega

/-- before the first position of the requested times nothing is taken for windows up to 1 -/
theorem solveTimesZ_le_one (index : List τ) {w : Int} (hw : w ≤ 1) (times : Option (List τ)) :
    solveTimesZ index w times = solveTimes index 1 times := by
  rcases times with _ | _ | ⟨t, ts⟩
  · rfl
  · rfl
  · unfold solveTimesZ solveTimes
    dsimp only
    rw [pySlice_empty index _ _ (by omega), pySlice_empty index _ _ (by simp)]

/-- **C133.** When the returns are there and the request is one that `solve` answers (for any window), the exception is
`IndexError`. -/
theorem C133_negative_window_panel {P : Panel τ n K} {returns : Dict τ (Vec n)} {c : Comb τ n K}
    (h : P.Gives returns c) (hlen : 2 ≤ P.len) (solver : Solver n K) (w : Int) (hw : w < 0) (times : Option (List τ))
    (a b : ℕ) (hreq : P.Request 1 times a b) : c.solveCall solver (some w) times = ⟨[], some .indexError⟩ := by
  have hN : effWindow (some 1) (P.len - 1) = 1 := by unfold effWindow; simp; omega
  rw [← hN] at hreq
  have hpq : ∃ p q, 0 < p ∧ p + q ≤ P.len ∧
      solveTimes ((List.range' 1 (P.len - 1)).map P.time) 1 times = .ok ((List.range' p q).map P.time) := by
    cases hreq with
    | all => exact ⟨1, P.len - 1, by omega, by omega, rfl⟩
    | some z m hz hm hzm =>
      have ht := solveTimes_some h.ok 1 z m (by omega) (by omega) hz hm hzm
      rw [if_pos (show 1 ≤ z from hz)] at ht
      exact ⟨z, m, hz, hzm, by simpa using ht⟩
  obtain ⟨p, q, hp, hpq, ht⟩ := hpq
  have hobs : ((List.range' 1 (P.len - 1)).map P.obs).map Obs.time = (List.range' 1 (P.len - 1)).map P.time := by
    rw [List.map_map]; rfl
  have key : solvePrepZ c (some w) times = .error .indexError := by
    rw [h.eq]
    unfold solvePrepZ Panel.comb
    dsimp only
    rw [effWindowZ_neg hw, obs_panel h.covered, ok_bind, hobs, solveTimesZ_le_one _ (by omega), ht, ok_bind,
      prodBs_panel h.ok p q hp hpq, ok_bind, windowEndsZ_nonpos _ hw.le (fun h => absurd h hw.ne)]
    rfl
  unfold Comb.solveCall
  rw [key]

/-! ### C134: the order of the index -/

/-- what is before the first item when `truncate` fails for all windows -/
theorem solveCall_truncate_fails (c : Comb τ n K) (window : Option ℕ) (times : Option (List τ)) (solver : Solver n K)
    (htr : ∀ (obs : List (Obs τ n K)) ts, obs.map Obs.time = c.solveIndex → ts.Sublist c.solveIndex →
      ∀ ab ∈ windowEnds (effWindow window c.solveIndex.length) ts, truncateZ obs ab.1 ab.2 = .error .valueError) :
    (c.solveCall solver (window.map fun w : ℕ => (w : Int)) times).items = [] ∧
    (times = none → ∃ e, (c.solveCall solver (window.map fun w : ℕ => (w : Int)) times).err = some e) := by
  have key : (∃ e, solvePrepZ c (window.map fun w : ℕ => (w : Int)) times = .error e) ∨
      (times ≠ none ∧ ∃ w, solvePrepZ c (window.map fun w : ℕ => (w : Int)) times = .ok (w, [])) := by
    unfold solvePrepZ
    dsimp only
    rw [shiftRows_length, effWindowZ_nat]
    set w := effWindow window c.solveIndex.length with hw
    rcases h1 : (shiftRows c.rows).mapM (obsOf c.returns) with e | obs
    · exact Or.inl ⟨e, rfl⟩
    rw [ok_bind]
    have hobs : obs.map Obs.time = c.solveIndex := by rw [obs_times h1, shiftRows_times]; rfl
    rw [hobs, solveTimesZ_nat]
    rcases h2 : solveTimes c.solveIndex w times with e | ts
    · exact Or.inl ⟨e, rfl⟩
    rw [ok_bind]
    rcases h3 : prodBs obs ts with e | prods
    · exact Or.inl ⟨e, rfl⟩
    rw [ok_bind]
    have hwle : w ≤ c.solveIndex.length := effWindow_le window _
    have hsub := solveTimes_sublist hwle h2
    by_cases hw0 : w = 0
    · have hidx : c.solveIndex = [] := by
        by_contra hne
        have := effWindow_pos window (N := c.solveIndex.length) (List.length_pos_iff.mpr hne)
        omega
      have hts : ts = [] := List.sublist_nil.mp (hidx ▸ hsub)
      rw [windowEndsZ_nonpos ts (by omega) (fun _ => hts)]
      exact Or.inl ⟨_, rfl⟩
    rw [windowEndsZ_nat (by omega), ok_bind]
    generalize List.mapM cholItem _ = R
    rcases R with e | cs
    · exact Or.inl ⟨e, rfl⟩
    rw [ok_bind]
    rcases he : windowEnds w ts with _ | ⟨ab, ends⟩
    · right
      refine ⟨?_, (w : Int), rfl⟩
      rintro rfl
      cases h2
      have := congrArg List.length he
      unfold windowEnds at this
      rw [List.length_zip, List.length_drop, List.length_nil] at this
      omega
    · left
      have := htr obs ts hobs hsub ab (by rw [he]; exact List.mem_cons_self)
      rw [List.mapM_cons]
      unfold truncItem
      rw [this]
      exact ⟨.valueError, rfl⟩
  unfold Comb.solveCall
  rcases key with ⟨e, he⟩ | ⟨hne, w, he⟩
  · rw [he]; exact ⟨rfl, fun _ => ⟨e, rfl⟩⟩
  · rw [he]
    refine ⟨rfl, fun h => absurd h hne⟩

/-- **C134.** `solve` never gives a result when the times of the predictions (without the first) are neither in
increasing nor in decreasing order; without `times` it raises. -/
theorem C134_unsorted (c : Comb τ n K) (hinc : ¬ c.solveIndex.Pairwise (· ≤ ·)) (hdec : ¬ c.solveIndex.Pairwise (· ≥ ·))
    (solver : Solver n K) (window : Option ℕ) (times : Option (List τ)) :
    (c.solveCall solver (window.map fun w : ℕ => (w : Int)) times).items = [] ∧
    (times = none → ∃ e, (c.solveCall solver (window.map fun w : ℕ => (w : Int)) times).err = some e) := by
  apply solveCall_truncate_fails
  intro obs ts hobs _ ab _
  unfold truncateZ
  rw [hobs, if_pos ⟨hinc, hdec⟩]

/-- **C134.** The same holds for decreasing times, unless the window is 1. -/
theorem C134_decreasing (c : Comb τ n K) (hdec : c.solveIndex.Pairwise (· > ·)) (solver : Solver n K)
    (window : Option ℕ) (hw : 2 ≤ effWindow window c.solveIndex.length) (times : Option (List τ)) :
    (c.solveCall solver (window.map fun w : ℕ => (w : Int)) times).items = [] ∧
    (times = none → ∃ e, (c.solveCall solver (window.map fun w : ℕ => (w : Int)) times).err = some e) := by
  apply solveCall_truncate_fails
  intro obs ts hobs hsub ab hab
  unfold truncateZ
  obtain ⟨i, hi, rfl⟩ := mem_windowEnds hab
  have : ts[i] > ts[i + (effWindow window c.solveIndex.length - 1)] :=
    List.pairwise_iff_getElem.mp (hdec.sublist hsub) _ _ (by omega) hi (by omega)
  rw [if_pos (show _ < _ from this), ite_self]

/-- **C134.** With a window of 1 the order of the times only matters for the order of the results: for decreasing times
`solve` works as for increasing ones. -/
theorem C134_decreasing_window_one (c : Comb τ n K) (hdec : c.solveIndex.Pairwise (· > ·)) (solver : Solver n K)
    (window : Option ℕ) (hw : effWindow window c.solveIndex.length = 1) (times : Option (List τ)) :
    c.solveCall solver (window.map fun w : ℕ => (w : Int)) times = c.solve solver window times := by
  apply solveCall_of_prep
  apply solvePrepZ_ok c window times (hdec.imp fun h => h.ne')
  intro obs ts hobs hsub ab hab
  unfold truncateZ
  rw [hw] at hab
  obtain ⟨i, hi, rfl⟩ := mem_windowEnds hab
  have h1 : (obs.map Obs.time).Pairwise (· ≥ ·) := by rw [hobs]; exact hdec.imp fun h => h.le
  rw [if_neg (by tauto), if_neg (by simp)]

theorem mem_of_lookup_some {A : Type} {d : List (τ × A)} {t : τ} {a : A} (h : d.lookup t = some a) : (t, a) ∈ d := by
  induction d with
  | nil => cases h
  | cons p d ih =>
    obtain ⟨s, b⟩ := p
    rw [List.lookup_cons] at h
    by_cases e : t = s
    · subst e
      simp only [beq_self_eq_true] at h
      cases h
      exact List.mem_cons_self
    · rw [beq_eq_false_iff_ne.mpr e] at h
      exact List.mem_cons_of_mem _ (ih h)

/-- **C134.** The times in question are those of the first expert, in the order of its dictionary. -/
theorem C134_index {sigmas : Fin K → Dict τ (Mat n)} {returns : Dict τ (Vec n)}
    {means : Option (Fin K → Option (Dict τ (Vec n)))} {c : Comb τ n K} (h : fromSigmas sigmas returns means = .ok c)
    (k : Fin K) (hk : k.1 = 0) : c.solveIndex = (sigmas k).keys.tail := by
  obtain ⟨m, Ls, _, hL, hF, _⟩ := fromSigmas_inv h
  have hrow : c.rows.map Row.time = frameIndex Ls := by
    clear h
    generalize frameIndex Ls = idx at hF
    generalize c.rows = rows at hF
    induction hF with
    | nil => rfl
    | cons h1 _ ih =>
      rw [List.map_cons, ih]
      congr 1
      unfold frameRow at h1
      rcases hfm : finM (fun k => frameCell (Ls k) (m k) _) with e | cells
      · rw [hfm] at h1; cases h1
      · rw [hfm] at h1; cases h1; rfl
  have hkeys := choleskyPrecision_keys (hL k)
  have hsub : ∀ t ∈ frameIndex Ls, t ∈ (Ls k).keys := by
    intro t ht
    obtain ⟨row, _, hrow⟩ := forall₂_mem_left hF ht
    unfold frameRow at hrow
    rcases hfm : finM (fun k => frameCell (Ls k) (m k) t) with e | cells
    · rw [hfm] at hrow; cases hrow
    · rw [finM_ok_iff] at hfm
      have hc := hfm k
      unfold frameCell at hc
      split at hc
      · cases hc
      · rename_i L hl
        exact List.mem_map.mpr ⟨(t, L), mem_of_lookup_some hl, rfl⟩
  have hidx : frameIndex Ls = (Ls k).keys := by
    unfold frameIndex at hsub ⊢
    obtain ⟨K', rfl⟩ : ∃ K', K = K' + 1 := ⟨K - 1, by have := k.2; omega⟩
    have hk0 : k = 0 := Fin.ext hk
    subst hk0
    rw [List.finRange_succ, List.foldl_cons] at hsub ⊢
    simp only [List.nil_append, List.not_mem_nil, not_false_eq_true, decide_true, List.filter_true] at hsub ⊢
    generalize (List.finRange K').map Fin.succ = ks at hsub
    have key : ∀ (ks : List (Fin (K' + 1))) (idx : List τ),
        (∀ t ∈ ks.foldl (fun idx k => idx ++ (Ls k).keys.filter fun t => t ∉ idx) idx, t ∈ idx) →
        ks.foldl (fun idx k => idx ++ (Ls k).keys.filter fun t => t ∉ idx) idx = idx := by
      intro ks
      induction ks with
      | nil => intro idx _; rfl
      | cons j ks ih =>
        intro idx hh
        rw [List.foldl_cons] at hh ⊢
        have mono : ∀ (ks : List (Fin (K' + 1))) (idx : List τ), ∀ t ∈ idx,
            t ∈ ks.foldl (fun idx k => idx ++ (Ls k).keys.filter fun t => t ∉ idx) idx := by
          intro ks
          induction ks with
          | nil => intro idx t ht; exact ht
          | cons j ks ih => intro idx t ht; exact ih _ t (List.mem_append_left _ ht)
        have hnil : (Ls j).keys.filter (fun t => t ∉ idx) = [] := by
          rw [List.filter_eq_nil_iff]
          intro t ht hdec
          have hnot : t ∉ idx := by simpa using hdec
          exact hnot (hh t (mono _ _ t (List.mem_append_right _ (List.mem_filter.mpr ⟨ht, hdec⟩))))
        rw [hnil, List.append_nil] at hh ⊢
        exact ih idx hh
    exact key ks _ hsub
  unfold Comb.solveIndex
  rw [hrow, hidx, hkeys]

/-! ### the hypotheses can be met -/

/-- C133: two predictions back, and minus two -/
example : (Demo.panel.comb Demo.returns).solveCall (exactSolver 2 2) (some 2)
      = (Demo.panel.comb Demo.returns).solve (exactSolver 2 2) (some 2) none ∧
    (Demo.panel.comb Demo.returns).solveCall (exactSolver 2 2) (some (-2)) = ⟨[], some .indexError⟩ :=
  ⟨C133_panel Demo.panel_gives _ (some 2) none,
    C133_negative_window_panel Demo.panel_gives (by show 2 ≤ 4; norm_num) _ (-2) (by norm_num) none _ _ .all⟩

/-- an expert whose predictions come in the order `ts` -/
def orderedExpert (ts : List ℕ) : Fin 1 → Dict ℕ (Mat 1) := fun _ => ts.map fun t => (t, 1)

theorem orderedExpert_ok (ts : List ℕ) (returns : Dict ℕ (Vec 1)) :
    ∃ c, fromSigmas (orderedExpert ts) returns none = .ok c ∧ c.solveIndex = ts.tail := by
  obtain ⟨c, hc⟩ := (C38_constructor_ok (orderedExpert ts) returns none).mpr ⟨trivial, by
      intro k p hp
      obtain ⟨t, _, rfl⟩ := List.mem_map.mp hp
      exact usable_of_posDef Matrix.PosDef.one, by
      intro k k' t ht
      exact ht⟩
  refine ⟨c, hc, ?_⟩
  rw [C134_index hc 0 rfl]
  unfold orderedExpert Dict.keys
  rw [List.map_map]
  congr 1
  exact List.map_id ts

/-- C134: days in the order 0, 2, 1, 3 -/
example (returns : Dict ℕ (Vec 1)) : ∃ c, fromSigmas (orderedExpert [0, 2, 1, 3]) returns none = .ok c ∧
    (c.solveCall (exactSolver 1 1) (some 2)).items = [] ∧ ∃ e, (c.solveCall (exactSolver 1 1) (some 2)).err = some e := by
  obtain ⟨c, hc, hidx⟩ := orderedExpert_ok [0, 2, 1, 3] returns
  have := C134_unsorted c (by rw [hidx]; simp) (by rw [hidx]; simp) (exactSolver 1 1) (some 2) none
  exact ⟨c, hc, this.1, this.2 rfl⟩

/-- C134: days in the order 3, 2, 1, 0 -/
example (returns : Dict ℕ (Vec 1)) : ∃ c, fromSigmas (orderedExpert [3, 2, 1, 0]) returns none = .ok c ∧
    (c.solveCall (exactSolver 1 1) (some 2)).items = [] ∧
    c.solveCall (exactSolver 1 1) (some 1) = c.solve (exactSolver 1 1) (some 1) none := by
  obtain ⟨c, hc, hidx⟩ := orderedExpert_ok [3, 2, 1, 0] returns
  refine ⟨c, hc, ?_, ?_⟩
  · exact (C134_decreasing c (by rw [hidx]; simp) (exactSolver 1 1) (some 2) (by rw [hidx]; simp [effWindow]) none).1
  · exact C134_decreasing_window_one c (by rw [hidx]; simp) (exactSolver 1 1) (some 1) (by rw [hidx]; simp [effWindow]) none

end CovPred
