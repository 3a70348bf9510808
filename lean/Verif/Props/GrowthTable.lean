import Verif.Model.GrowthTable
import Verif.Lemmas.Backtests
import Mathlib.Data.List.GetD
import Mathlib.Tactic.Ring
import Mathlib.Tactic.Linarith

/-
Property C185: the frame of portfolio values.
-/
set_option linter.unusedSectionVars false
namespace CovPred

/-- the values `V m 0, …, V m (T-1)` of the traders `0, …, K-1` -/
def histories (K T : ℕ) (V : ℕ → ℕ → ℝ) : List (List ℝ) := (List.range K).map fun m => (List.range T).map (V m)

theorem flatten_histories (K T : ℕ) (V : ℕ → ℕ → ℝ) :
    (histories K T V).flatten = (List.range (K * T)).map fun m => V (m / T) (m % T) := by
  unfold histories
  induction K with
  | zero => simp
  | succ K ih =>
    rw [List.range_succ, List.map_append, List.flatten_append, ih, Nat.add_mul, one_mul, List.range_add, List.map_append]
    congr 1
    simp only [List.map_cons, List.map_nil, List.flatten_cons, List.flatten_nil, List.append_nil, List.map_map]
    refine List.map_congr_left fun t ht => ?_
    rw [List.mem_range] at ht
    simp only [Function.comp]
    rw [Nat.mul_comm K T, Nat.mul_add_div (by omega), Nat.mul_add_mod, Nat.div_eq_of_lt ht, Nat.mod_eq_of_lt ht, Nat.add_zero]

theorem growthTable_histories {names : List String} (hn : names.length = 6) {K T : ℕ} (hK : 6 ∣ K * T) (V : ℕ → ℕ → ℝ) :
    growthTable names (histories K T V) = .ok (names, (List.range (K * T / 6)).map fun i => (List.range 6).map fun j =>
      V ((6 * i + j) / T) ((6 * i + j) % T)) := by
  have hl : ∀ v ∈ histories K T V, v.length = T := by
    intro v hv
    obtain ⟨m, -, rfl⟩ := List.mem_map.1 hv
    simp
  unfold growthTable
  rw [if_neg (by rintro ⟨v, hv, w, hw, hne⟩; exact hne ((hl v hv).trans (hl w hw).symm))]
  unfold reshapeRows
  rw [flatten_histories, List.length_map, List.length_range, if_neg (by omega)]
  have : (List.map (fun i => List.map (fun j => (List.map (fun m => V (m / T) (m % T)) (List.range (K * T))).getD (6 * i + j) 0)
      (List.range 6)) (List.range (K * T / 6)))
      = (List.range (K * T / 6)).map fun i => (List.range 6).map fun j => V ((6 * i + j) / T) ((6 * i + j) % T) := by
    refine List.map_congr_left fun i hi => List.map_congr_left fun j hj => ?_
    rw [List.mem_range] at hi hj
    rw [List.getD_eq_getElem _ _ (by simp; omega), List.getElem_map, List.getElem_range]
  rw [this]
  show (if names.length ≠ 6 then _ else _) = _
  rw [if_neg (by simpa using hn)]
  rfl

/-- The frame of six traders with `T` values each has `T` rows of six cells. Counting the cells row by row from zero, cell number `c`
holds the value of trader `c / T` at time `c % T`: the histories fill the rows one after the other. -/
theorem C185_cells {names : List String} (hn : names.length = 6) (T : ℕ) (V : ℕ → ℕ → ℝ) :
    ∃ rows, growthTable names (histories 6 T V) = .ok (names, rows) ∧ rows.length = T ∧ ∀ i, i < T →
      (rows.getD i []).length = 6 ∧ ∀ j, j < 6 → (rows.getD i []).getD j 0 = V ((6 * i + j) / T) ((6 * i + j) % T) := by
  refine ⟨_, growthTable_histories hn (Dvd.intro T rfl) V, by simp, fun i hi => ?_⟩
  rw [List.getD_eq_getElem _ _ (by simp; omega), List.getElem_map, List.getElem_range]
  refine ⟨by simp, fun j hj => ?_⟩
  rw [List.getD_eq_getElem _ _ (by simp; omega), List.getElem_map, List.getElem_range]

/-- So a column is not the history of the trader it is named after: for two or more values the second cell of the first row, in the column of
the second trader, is the second value of the FIRST trader; for six or more the whole first row is his. Only a table of a single
row is right. -/
theorem C185_scrambled {names : List String} (hn : names.length = 6) (T : ℕ) (V : ℕ → ℕ → ℝ) {rows : List (List ℝ)}
    (h : growthTable names (histories 6 T V) = .ok (names, rows)) :
    (2 ≤ T → (rows.getD 0 []).getD 1 0 = V 0 1) ∧
    (6 ≤ T → ∀ j, j < 6 → (rows.getD 0 []).getD j 0 = V 0 j) ∧
    (1 ≤ T → ((rows.getD 0 []).getD 0 0 = V 0 0 ∧ (rows.getD (T - 1) []).getD 5 0 = V 5 (T - 1))) ∧
    (T = 1 → ∀ j, j < 6 → (rows.getD 0 []).getD j 0 = V j 0) := by
  obtain ⟨rows', h', -, hc⟩ := C185_cells hn T V
  rw [h] at h'
  cases h'
  refine ⟨fun hT => ?_, fun hT j hj => ?_, fun hT => ⟨?_, ?_⟩, fun hT j hj => ?_⟩
  · rw [(hc 0 (by omega)).2 1 (by omega), Nat.div_eq_of_lt (by omega), Nat.mod_eq_of_lt (by omega)]
  · rw [(hc 0 (by omega)).2 j hj, Nat.div_eq_of_lt (by omega), Nat.mod_eq_of_lt (by omega)]
    simp
  · rw [(hc 0 (by omega)).2 0 (by omega)]; simp
  · rw [(hc (T - 1) (by omega)).2 5 (by omega)]
    have e : 6 * (T - 1) + 5 = T * 5 + (T - 1) := by omega
    rw [e, Nat.mul_add_div (by omega), Nat.mul_add_mod, Nat.div_eq_of_lt (by omega), Nat.mod_eq_of_lt (by omega)]
  · subst hT
    rw [(hc 0 (by omega)).2 j hj]
    simp [Nat.mod_one]

/-- For two or more values there are histories for which the column of the second trader is wrong; nothing is lost, though: every value of
every trader is in some cell. -/
theorem C185_wrong {names : List String} (hn : names.length = 6) (T : ℕ) :
    (2 ≤ T → ∃ V : ℕ → ℕ → ℝ, ∀ rows, growthTable names (histories 6 T V) = .ok (names, rows) →
      (rows.getD 0 []).getD 1 0 ≠ V 1 0) ∧
    ∀ (V : ℕ → ℕ → ℝ) (rows : List (List ℝ)), growthTable names (histories 6 T V) = .ok (names, rows) →
      ∀ m, m < 6 → ∀ t, t < T → ∃ i, i < T ∧ ∃ j, j < 6 ∧ (rows.getD i []).getD j 0 = V m t := by
  refine ⟨fun hT => ⟨fun m _ => m, fun rows h => ?_⟩, fun V rows h m hm t ht => ?_⟩
  · rw [(C185_scrambled hn T _ h).1 hT]
    norm_num
  · obtain ⟨rows', h', -, hc⟩ := C185_cells hn T V
    rw [h] at h'
    cases h'
    have hlt : m * T + t < 6 * T := by
      have : m * T ≤ 5 * T := Nat.mul_le_mul_right T (by omega)
      omega
    refine ⟨(m * T + t) / 6, by omega, (m * T + t) % 6, Nat.mod_lt _ (by norm_num), ?_⟩
    rw [(hc _ (by omega)).2 _ (Nat.mod_lt _ (by norm_num)), Nat.div_add_mod, Nat.mul_comm m T, Nat.mul_add_div (by omega),
      Nat.mul_add_mod, Nat.div_eq_of_lt ht, Nat.mod_eq_of_lt ht, Nat.add_zero]

/-- Histories of different lengths, another number of names than six, or a number of values that six does not divide: `ValueError`. -/
theorem C185_errors (names : List String) (vs : List (List ℝ)) :
    ((∃ v ∈ vs, ∃ w ∈ vs, v.length ≠ w.length) ∨ names.length ≠ 6 ∨ ¬ 6 ∣ vs.flatten.length) ↔
      growthTable names vs = .error .valueError := by
  unfold growthTable reshapeRows
  by_cases h1 : ∃ v ∈ vs, ∃ w ∈ vs, v.length ≠ w.length
  · simp [h1]
  · rw [if_neg h1]
    by_cases h2 : vs.flatten.length % 6 ≠ 0
    · rw [if_pos h2]
      exact ⟨fun _ => rfl, fun _ => Or.inr (Or.inr (by omega))⟩
    · rw [if_neg h2]
      show _ ↔ (if names.length ≠ 6 then _ else _) = _
      by_cases h3 : names.length ≠ 6
      · rw [if_pos h3]; exact ⟨fun _ => rfl, fun _ => Or.inr (Or.inl h3)⟩
      · rw [if_neg h3]
        refine ⟨fun h => ?_, fun h => by cases h⟩
        rcases h with h | h | h
        · exact absurd h h1
        · exact absurd h h3
        · exact absurd (by omega) h

/-! Two days of the six traders of the notebook. -/
namespace GrowthEx

/-- the names of the notebook -/
def names : List String := ["EWMA-10", "EWMA-21", "EWMA-63", "EWMA-125", "EWMA-250", "CM-IEWMA"]

/-- trader `m` has the values `10 m + 1` and `10 m + 2` -/
def V (m t : ℕ) : ℝ := 10 * m + t + 1

example : growthTable names (histories 6 2 V)
    = .ok (names, [[1, 2, 11, 12, 21, 22], [31, 32, 41, 42, 51, 52]]) := by
  rw [growthTable_histories rfl ⟨2, rfl⟩]
  simp [List.range_succ, V]
  norm_num

end GrowthEx
end CovPred
