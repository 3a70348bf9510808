import Verif.Model.SolveCall
import Verif.Lemmas.FromEwmas
import Verif.Lemmas.Solve

/-
Lemmas for `Verif.Props.SolveCall`: Python's indexing against the simpler form of `Verif.Model.Combination`.
-/
set_option linter.unusedSectionVars false
namespace CovPred

variable {τ : Type} [LinearOrder τ] {n K : ℕ}

theorem effWindowZ_nat (window : Option ℕ) (N : ℕ) :
    effWindowZ (window.map fun w : ℕ => (w : Int)) N = (effWindow window N : ℕ) := by
  unfold effWindowZ effWindow
  cases window with
  | none => simp
  | some w =>
    simp only [Option.map_some]
    by_cases h : w = 0
    · simp [h]
    · have : (w : Int) ≠ 0 := by exact_mod_cast h
      simp only [if_neg h, if_neg this]
      exact (Nat.cast_min w N).symm

theorem effWindowZ_neg {w : Int} (hw : w < 0) (N : ℕ) : effWindowZ (some w) N = w := by
  unfold effWindowZ
  simp only [if_neg hw.ne]
  omega

theorem solveTimesZ_nat (index : List τ) (w : ℕ) (times : Option (List τ)) :
    solveTimesZ index (w : Int) times = solveTimes index w times := by
  rcases times with _ | _ | ⟨t, ts⟩ <;> rfl

theorem pyIndex_nat {A : Type} (l : List A) (i : ℕ) (h : i < l.length) : pyIndex l (i : Int) = .ok l[i] := by
  unfold pyIndex
  have h1 : ¬ ((i : Int) < 0) := by omega
  simp only [if_neg h1, Int.toNat_natCast, List.getElem?_eq_getElem h]

theorem pyIndex_large {A : Type} (l : List A) (i : Int) (h : l.length ≤ i) : pyIndex l i = .error .indexError := by
  unfold pyIndex
  have h1 : ¬ (i < 0) := by omega
  simp only [if_neg h1]
  rw [List.getElem?_eq_none (by omega)]

theorem pyIndex_error {A : Type} {l : List A} {i : Int} {e : Err} (h : pyIndex l i = .error e) : e = .indexError := by
  unfold pyIndex at h
  dsimp only at h
  generalize (if i < 0 then i + (l.length : Int) else i) = j at h
  split at h
  · cases h; rfl
  · split at h
    · cases h
    · cases h; rfl

theorem windowEndsZ_step_error {w : Int} {times : List τ} {i : Int} {e : Err}
    (h : (do
      let b ← pyIndex times i
      let a ← pyIndex times (i - w + 1)
      pure (a, b) : Except Err (τ × τ)) = .error e) : e = .indexError := by
  rcases h1 : pyIndex times i with e1 | b
  · rw [h1] at h
    have h2 : Except.error e1 = Except.error e := h
    cases h2
    exact pyIndex_error h1
  · rcases h2 : pyIndex times (i - w + 1) with e1 | a
    · rw [h1, h2] at h
      have h3 : Except.error e1 = Except.error e := h
      cases h3
      exact pyIndex_error h2
    · rw [h1, h2] at h
      cases h

/-- the only exception of the indexing -/
theorem windowEndsZ_error {w : Int} {times : List τ} {e : Err} (h : windowEndsZ w times = .error e) :
    e = .indexError := by
  unfold windowEndsZ at h
  obtain ⟨i, _, hi⟩ := mapM_error _ _ _ h
  exact windowEndsZ_step_error hi

theorem mem_intRange {a b i : Int} : i ∈ intRange a b ↔ a ≤ i ∧ i < b := by
  unfold intRange
  simp only [List.mem_map, List.mem_range]
  constructor
  · rintro ⟨k, hk, rfl⟩; omega
  · rintro ⟨h1, h2⟩
    exact ⟨(i - a).toNat, by omega, by omega⟩

/-- a window that is not positive leads to an index out of range -/
theorem windowEndsZ_nonpos {w : Int} (times : List τ) (hw : w ≤ 0) (h : w = 0 → times = []) :
    windowEndsZ w times = .error .indexError := by
  rcases he : windowEndsZ w times with e | l
  · rw [windowEndsZ_error he]
  · exfalso
    unfold windowEndsZ at he
    rw [mapM_ok_iff_forall₂] at he
    obtain ⟨y, _, hy⟩ := forall₂_mem_left he (x := (times.length : Int) - 1) (by rw [mem_intRange]; omega)
    by_cases h0 : times = []
    · subst h0
      cases hy
    · have hpos : 0 < times.length := List.length_pos_iff.mpr h0
      have hw0 : w ≠ 0 := fun e => h0 (h e)
      rw [pyIndex_large times ((times.length : Int) - 1 - w + 1) (by omega)] at hy
      rcases h1 : pyIndex times ((times.length : Int) - 1) with e1 | b
      · rw [h1] at hy; cases hy
      · rw [h1] at hy; cases hy

theorem windowEndsZ_nat {w : ℕ} (hw : 0 < w) (times : List τ) :
    windowEndsZ (w : Int) times = .ok (windowEnds w times) := by
  unfold windowEndsZ
  rw [mapM_ok_iff_forall₂, List.forall₂_iff_get]
  have hlen : (intRange ((w : Int) - 1) times.length).length = times.length - (w - 1) := by
    unfold intRange
    rw [List.length_map, List.length_range]
    omega
  refine ⟨?_, ?_⟩
  · rw [hlen]
    unfold windowEnds
    rw [List.length_zip, List.length_drop]
    omega
  · intro i h1 h2
    have hi : i < times.length - (w - 1) := by rw [← hlen]; exact h1
    have e1 : (intRange ((w : Int) - 1) times.length).get ⟨i, h1⟩ = ((w - 1 + i : ℕ) : Int) := by
      unfold intRange
      simp only [List.get_eq_getElem, List.getElem_map, List.getElem_range]
      omega
    have e2 : ((w - 1 + i : ℕ) : Int) - (w : Int) + 1 = ((i : ℕ) : Int) := by omega
    rw [e1, e2, pyIndex_nat _ _ (by omega), pyIndex_nat _ _ (by omega)]
    unfold windowEnds
    simp only [List.get_eq_getElem, List.getElem_zip, List.getElem_drop]
    rfl

/-- the times `solve` works on are a part of the index -/
theorem solveTimes_sublist {index : List τ} {w : ℕ} {times : Option (List τ)} {ts : List τ} (hw : w ≤ index.length)
    (h : solveTimes index w times = .ok ts) : ts.Sublist index := by
  rcases times with _ | _ | ⟨t, rest⟩
  · cases h; exact List.Sublist.refl _
  · cases h
  · unfold solveTimes at h
    dsimp only at h
    split at h
    · rename_i hmem
      split at h
      · rename_i heq
        cases h
        have hz : index.idxOf t < index.length := List.idxOf_lt_length_of_mem hmem
        rw [← heq]
        set z := index.idxOf t with hzdef
        have s2 : pySlice index (z : Int) ((z : Int) + (t :: rest).length)
            = (index.take (min (z + (t :: rest).length) index.length)).drop z := by
          unfold pySlice
          dsimp only
          rw [if_neg (by omega), if_neg (by omega)]
          congr 1
          · omega
          · congr 1; omega
        rw [s2]
        by_cases hneg : (z : Int) - w + 1 < 0
        · have s1 : pySlice index ((z : Int) - w + 1) (z : Int) = [] := by
            unfold pySlice
            dsimp only
            rw [if_neg (by omega : ¬ ((z : Int) < 0)), if_pos hneg]
            apply List.drop_eq_nil_of_le
            rw [List.length_take]
            omega
          rw [s1, List.nil_append]
          exact (List.drop_sublist _ _).trans (List.take_sublist _ _)
        · have s1 : pySlice index ((z : Int) - w + 1) (z : Int) = (index.take z).drop (z + 1 - w) := by
            unfold pySlice
            dsimp only
            rw [if_neg (by omega : ¬ ((z : Int) < 0)), if_neg hneg]
            congr 1
            · omega
            · congr 1; omega
          rw [s1]
          set M := min (z + (t :: rest).length) index.length
          have hM : z ≤ M := by omega
          have : (index.take z).drop (z + 1 - w) ++ (index.take M).drop z
              = ((index.take z) ++ (index.take M).drop z).drop (min (z + 1 - w) z) := by
            rw [List.drop_append_of_le_length (by rw [List.length_take]; omega)]
            congr 1
            by_cases h1 : z + 1 - w ≤ z
            · rw [min_eq_left h1]
            · rw [min_eq_right (by omega), List.drop_eq_nil_of_le (by rw [List.length_take]; omega),
                List.drop_eq_nil_of_le (by rw [List.length_take]; omega)]
          rw [this]
          refine (List.drop_sublist _ _).trans ?_
          have : index.take z = (index.take M).take z := by
            rw [List.take_take, min_eq_left hM]
          rw [this, List.take_append_drop]
          exact List.take_sublist _ _
      · cases h
    · cases h

theorem prodBs_keys {obs : List (Obs τ n K)} {ts : List τ} {prods : List (τ × Mat K)} (h : prodBs obs ts = .ok prods) :
    prods.map Prod.fst = ts := by
  unfold prodBs at h
  rw [mapM_ok_iff_forall₂] at h
  induction h with
  | nil => rfl
  | cons h1 _ ih =>
    rw [List.map_cons, ih]
    split at h1
    · cases h1
    · cases h1; rfl

theorem windowEnds_snd (w : ℕ) (ts : List τ) : (windowEnds w ts).map Prod.snd = ts.drop (w - 1) := by
  unfold windowEnds
  rw [List.map_snd_zip]
  rw [List.length_drop]; omega

theorem mem_windowEnds {w : ℕ} {ts : List τ} {ab : τ × τ} (h : ab ∈ windowEnds w ts) :
    ∃ i, ∃ (h : i + (w - 1) < ts.length), ab = (ts[i], ts[i + (w - 1)]) := by
  obtain ⟨i, hi, e⟩ := List.getElem_of_mem h
  unfold windowEnds at hi e
  rw [List.length_zip, List.length_drop] at hi
  refine ⟨i, by omega, ?_⟩
  rw [← e, List.getElem_zip]
  congr 1
  rw [List.getElem_drop]
  congr 1
  omega

/-- the sums of `solve` are over nonempty windows -/
theorem labelSlice_ne_nil {A : Type} {s : List (τ × A)} (hnd : (s.map Prod.fst).Nodup) {w : ℕ} {ab : τ × τ}
    (h : ab ∈ windowEnds w (s.map Prod.fst)) : labelSlice s ab.1 ab.2 ≠ [] := by
  obtain ⟨i, hi, rfl⟩ := mem_windowEnds h
  unfold labelSlice
  rw [hnd.idxOf_getElem, hnd.idxOf_getElem]
  intro h0
  have := congrArg List.length h0
  simp only [List.length_map, List.length_drop, List.length_take, List.length_nil] at this
  rw [List.length_map] at hi
  omega

/-- `P_chol[time]` in the loop over `A` -/
theorem zip_lookup {ends : List (τ × τ)} (hnd : (ends.map Prod.snd).Nodup) {cs : List (Mat K)}
    (hlen : cs.length = ends.length) (g : τ × τ → List (Matrix (Fin n) (Fin K) ℝ)) :
    (ends.map fun ab => (ab.2, g ab)).mapM (pCholOf (List.zipWith (fun ab C => (ab.2, C)) ends cs))
      = .ok (List.zipWith (fun ab C => (ab.2, { A := g ab, C := C })) ends cs) := by
  rw [List.mapM_map, mapM_ok_iff_forall₂, List.forall₂_iff_get]
  refine ⟨by rw [List.length_zipWith]; omega, ?_⟩
  intro i h1 h2
  simp only [List.get_eq_getElem, Function.comp, List.getElem_zipWith]
  have hl : (List.zipWith (fun (ab : τ × τ) C => (ab.2, C)) ends cs).lookup (ends[i]).2 = some (cs[i]'(by omega)) := by
    have key : ∀ (ends : List (τ × τ)) (cs : List (Mat K)) (i : ℕ) (h1 : i < ends.length) (h2 : i < cs.length),
        (ends.map Prod.snd).Nodup →
        (List.zipWith (fun (ab : τ × τ) C => (ab.2, C)) ends cs).lookup (ends[i]).2 = some cs[i] := by
      intro ends
      induction ends with
      | nil => intro cs i h1; simp at h1
      | cons ab ends ih =>
        intro cs i h1 h2 hnd
        cases cs with
        | nil => simp at h2
        | cons C cs =>
          rw [List.map_cons, List.nodup_cons] at hnd
          cases i with
          | zero => simp [List.zipWith]
          | succ i =>
            have h1' : i < ends.length := by simpa using h1
            simp only [List.zipWith_cons_cons, List.getElem_cons_succ]
            have hne : ((ends[i]).2 == ab.2) = false := by
              rw [beq_eq_false_iff_ne]
              intro e
              exact hnd.1 (by rw [← e]; exact List.mem_map.mpr ⟨_, List.getElem_mem h1', rfl⟩)
            rw [List.lookup_cons, hne]
            exact ih cs i h1' (by simpa using h2) hnd.2
    exact key ends cs i h1 (by omega) hnd
  unfold pCholOf
  rw [hl]

end CovPred
