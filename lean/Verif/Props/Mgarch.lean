import Verif.Model.Mgarch
import Verif.Props.Packed
import Verif.Lemmas.Combination
import Verif.Lemmas.Backtests
import Verif.Lemmas.RunErrors
import Verif.Lemmas.RhoBands
import Verif.Lemmas.FromEwmas
import Mathlib.Data.List.NodupEquivFin

/-
The MGARCH predictors.
-/
set_option linter.unusedSectionVars false
namespace CovPred
open Matrix

variable {τ : Type} [DecidableEq τ] {n : ℕ}

private theorem range_items (times : List τ) (sigmas : List (Mat n)) (h : sigmas.length ≤ times.length) :
    (List.range sigmas.length).mapM (mgarchItem times sigmas) = .ok (List.zip times sigmas) := by
  rw [mapM_ok_iff_forall₂, List.forall₂_iff_get]
  refine ⟨by simp [h], ?_⟩
  intro i h1 h2
  have hi : i < sigmas.length := by simpa using h1
  simp only [List.get_eq_getElem, List.getElem_range, List.getElem_zip]
  unfold mgarchItem
  rw [List.getElem?_eq_getElem hi, List.getElem?_eq_getElem (show i < times.length by omega)]
  rfl

/-- The cell on any list of matrices it has unpacked. -/
private theorem table_ok {chunks : List (List (List ℝ))} {index : List τ} (hc : chunks ≠ []) {Ms : List (Mat n)}
    (hM : fromRowMatrixToCovariance chunks.flatten n = .ok Ms) (hlen : Ms.length ≤ index.length - 249) (hnd : index.Nodup) :
    mgarchTable chunks index n = .ok (List.zip (index.drop 249) (Ms.map fun S => (1 / 10000 : ℝ) • S)) := by
  unfold mgarchTable
  have h0 : chunks.length ≠ 0 := by simpa using hc
  rw [if_neg h0]
  simp only
  rw [hM, ok_bind]
  rw [range_items _ _ (by simpa using hlen), ok_bind, dictOf_nodup]
  · rfl
  · have hsub : ((List.zip (index.drop 249) (Ms.map fun S => (1 / 10000 : ℝ) • S)).map Prod.fst).Sublist (index.drop 249) := by
      have : ∀ (l : List τ) (m : List (Mat n)), ((List.zip l m).map Prod.fst).Sublist l := by
        intro l
        induction l with
        | nil => intro m; simp
        | cons a l ih =>
          intro m
          cases m with
          | nil => simp
          | cons b m => simpa using ih m
      exact this _ _
    exact hnd.sublist (hsub.trans (List.drop_sublist _ _))

/-- **C179.** What the cell builds. When the files hold one packed row of `n (n + 1) / 2` numbers per day, from the 250th
day of the returns on, the result has one matrix per row, keyed in order by the days from the 250th on; it is symmetric and
ten thousand times its upper triangle, read row by row, is the row of the file. -/
theorem C179_table (chunks : List (List (List ℝ))) (index : List τ) (hc : chunks ≠ [])
    (hrow : ∀ row ∈ chunks.flatten, 2 * row.length = n * (n + 1)) (hlen : chunks.flatten.length ≤ index.length - 249)
    (hnd : index.Nodup) :
    ∃ d : Dict τ (Mat n), mgarchTable chunks index n = .ok d ∧ d.length = chunks.flatten.length ∧
      ∀ (t : ℕ) (hd : t < d.length) (hi : 249 + t < index.length) (hr : t < chunks.flatten.length),
        d[t].1 = index[249 + t] ∧ (∀ i j, d[t].2 i j = d[t].2 j i) ∧
          upperRow ((10000 : ℝ) • d[t].2) = chunks.flatten[t] := by
  obtain ⟨Ms, h1, h2, h3⟩ := C54_matrix chunks.flatten hrow
  have hl : Ms.length = chunks.flatten.length := by rw [← h3, List.length_map]
  refine ⟨_, table_ok hc h1 (by omega) hnd, ?_, ?_⟩
  · rw [List.length_zip, List.length_map, List.length_drop]; omega
  intro t hd hi hr
  simp only [List.getElem_zip, List.getElem_drop, List.getElem_map]
  have ht : t < Ms.length := by omega
  refine ⟨trivial, ?_, ?_⟩
  · intro i j
    rw [Matrix.smul_apply, Matrix.smul_apply, h2 _ (List.getElem_mem ht) i j]
  · rw [smul_smul, show (10000 : ℝ) * (1 / 10000) = 1 by norm_num, one_smul]
    have := List.getElem_of_eq h3 (i := t) (by rw [List.length_map]; exact ht)
    rw [List.getElem_map] at this
    exact this

/-- **C179.** The units. If row `t` of the files is the packed covariance matrix of *a hundred times* the returns, the
predictor of day `249 + t` (counted from zero) is the covariance matrix of the returns themselves, exactly. -/
theorem C179_units (S : List (Mat n)) (hS : ∀ M ∈ S, ∀ i j, M i j = M j i) (chunks : List (List (List ℝ)))
    (hc : chunks ≠ []) (hfiles : chunks.flatten = S.map fun M => upperRow (Matrix.of fun i j => (100 * 100) * M i j))
    (index : List τ) (hlen : S.length ≤ index.length - 249) (hnd : index.Nodup) :
    mgarchTable chunks index n = .ok (List.zip (index.drop 249) S) := by
  have h : fromRowMatrixToCovariance chunks.flatten n = .ok (S.map fun M => (10000 : ℝ) • M) := by
    unfold fromRowMatrixToCovariance
    rw [hfiles, mapM_ok_iff_forall₂, List.forall₂_map_left_iff, List.forall₂_map_right_iff, List.forall₂_same]
    intro M hM
    have e : (Matrix.of fun i j => (100 * 100) * M i j : Mat n) = (10000 : ℝ) • M := by
      ext i j
      rw [Matrix.of_apply, Matrix.smul_apply, smul_eq_mul]
      norm_num
    rw [e]
    apply C54_round_trip
    intro i j
    rw [Matrix.smul_apply, Matrix.smul_apply, hS M hM i j]
  rw [table_ok hc h (by simpa using hlen) hnd, List.map_map]
  congr 2
  conv_rhs => rw [← List.map_id S]
  apply List.map_congr_left
  intro M _
  show (1 / 10000 : ℝ) • ((10000 : ℝ) • M) = M
  rw [smul_smul, show (1 / 10000 : ℝ) * 10000 = 1 by norm_num, one_smul]

/-- **C179.** How the rows are spread over files does not matter, only their order. -/
theorem C179_files (chunks chunks' : List (List (List ℝ))) (hc : chunks ≠ []) (hc' : chunks' ≠ [])
    (h : chunks.flatten = chunks'.flatten) (index : List τ) :
    mgarchTable chunks index n = mgarchTable chunks' index n := by
  unfold mgarchTable
  rw [if_neg (by simpa using hc), if_neg (by simpa using hc'), h]

/-- **C179.** What goes wrong: no files, or a row of a wrong length (other than one, see C54), raise `ValueError`; more rows
than days from the 250th on raise `IndexError`; so do files computed for fewer than 250 days of returns, unless they are
empty. -/
theorem C179_errors (chunks : List (List (List ℝ))) (index : List τ) :
    (chunks = [] → mgarchTable chunks index n = .error .valueError) ∧
    ((∃ row ∈ chunks.flatten, 2 * row.length ≠ n * (n + 1) ∧ row.length ≠ 1) →
      mgarchTable chunks index n = .error .valueError) ∧
    ((∀ row ∈ chunks.flatten, 2 * row.length = n * (n + 1)) → index.length - 249 < chunks.flatten.length →
      mgarchTable chunks index n = .error .indexError) := by
  refine ⟨?_, ?_, ?_⟩
  · rintro rfl; rfl
  · rintro ⟨row, hm, h1, h2⟩
    unfold mgarchTable
    by_cases hc : chunks.length = 0
    · rw [if_pos hc]; rfl
    · rw [if_neg hc]
      simp only
      have : fromRowMatrixToCovariance chunks.flatten n = .error .valueError := by
        cases he : fromRowMatrixToCovariance chunks.flatten n with
        | error e =>
          obtain ⟨r, _, hr⟩ := mapM_error _ _ _ he
          unfold fromRowToCovariance at hr
          dsimp only at hr
          split at hr
          · cases hr
          · cases hr; rfl
        | ok Ms =>
          exfalso
          unfold fromRowMatrixToCovariance at he
          rw [mapM_ok_iff_forall₂] at he
          obtain ⟨M, _, hM⟩ := forall₂_mem_left he hm
          rw [C54_wrong_length row h1 h2] at hM
          cases hM
      rw [this]; rfl
  · intro hrow hlen
    obtain ⟨Ms, h1, h2, h3⟩ := C54_matrix chunks.flatten hrow
    have hl : Ms.length = chunks.flatten.length := by rw [← h3, List.length_map]
    unfold mgarchTable
    have hc : chunks.length ≠ 0 := by
      intro h
      rw [List.length_eq_zero_iff] at h
      rw [h] at hlen
      simp at hlen
    rw [if_neg hc]
    simp only
    rw [h1, ok_bind]
    rw [mapM_error_first (mgarchItem (index.drop 249) (Ms.map fun S => (1 / 10000 : ℝ) • S)) .indexError _
      (index.length - 249)]
    · rfl
    · simp; omega
    · intro j hj
      rw [List.getElem_range]
      unfold mgarchItem
      rw [List.getElem?_eq_getElem (show j < (index.drop 249).length by simp; omega),
        List.getElem?_eq_getElem (show j < (Ms.map fun S => (1 / 10000 : ℝ) • S).length by simp; omega)]
      exact ⟨_, rfl⟩
    · rw [List.getElem_range]
      unfold mgarchItem
      rw [List.getElem?_eq_none (by simp)]
      rfl

/-- Two files with three rows in all, the packed covariance matrices of a hundred times the returns of two assets, and 252
days of returns. -/
example : mgarchTable [[[10000, 0, 20000], [30000, 10000, 20000]], [[40000, -10000, 10000]]] (List.range 252) 2
    = .ok [(249, !![1, 0; 0, 2]), (250, !![3, 1; 1, 2]), (251, !![4, -1; -1, 1])] := by
  have h := C179_units (n := 2) [!![1, 0; 0, 2], !![3, 1; 1, 2], !![4, -1; -1, 1]]
    (by
      intro M hM i j
      simp only [List.mem_cons, List.not_mem_nil, or_false] at hM
      rcases hM with rfl | rfl | rfl <;> fin_cases i <;> fin_cases j <;> rfl)
    [[[10000, 0, 20000], [30000, 10000, 20000]], [[40000, -10000, 10000]]] (by simp)
    (by simp [upperRow, List.finRange_succ, List.filter_cons]; norm_num) (List.range 252) (by simp) List.nodup_range
  rw [h]
  rfl

end CovPred
