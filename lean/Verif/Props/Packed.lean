import Verif.Model.ExpUtils
import Verif.Spec.ExpUtils
import Mathlib.LinearAlgebra.Matrix.Notation
import Mathlib.Tactic.NormNum
import Mathlib.Tactic.FinCases

/-
`from_row_to_covariance` and `from_row_matrix_to_covariance`.
-/
set_option linter.unusedSectionVars false
namespace CovPred
open Matrix

variable {n : ℕ}

theorem nodup_upperPositions (n : ℕ) : (upperPositions n).Nodup := by
  unfold upperPositions
  apply List.Nodup.filter
  have : ((List.finRange n).flatMap fun i => (List.finRange n).map fun j => (i, j))
      = (List.finRange n) ×ˢ (List.finRange n) := rfl
  rw [this]
  exact (List.nodup_finRange n).product (List.nodup_finRange n)

theorem mem_upperPositions {n : ℕ} (i j : Fin n) : (i, j) ∈ upperPositions n ↔ i ≤ j := by
  simp [upperPositions]

theorem upperRow_eq (S : Mat n) : upperRow S = (upperPositions n).map fun p => S p.1 p.2 := by
  unfold upperRow upperPositions
  rw [List.filter_flatMap, List.map_flatMap]
  congr 1
  funext i
  rw [List.filter_map, List.map_map]
  rfl

theorem length_upperRow (S : Mat n) : (upperRow S).length = (upperPositions n).length := by
  rw [upperRow_eq, List.length_map]

theorem count_upper (n : ℕ) : 2 * (upperPositions n).length = n * (n + 1) := by
  have h1 : (upperPositions n).length = (Finset.univ.filter fun p : Fin n × Fin n => p.1 ≤ p.2).card := by
    rw [← List.toFinset_card_of_nodup (nodup_upperPositions n)]
    congr 1
    ext ⟨i, j⟩
    simp [mem_upperPositions]
  have h2 : (Finset.univ.filter fun p : Fin n × Fin n => p.1 ≤ p.2).card
      = (Finset.univ.filter fun p : Fin n × Fin n => p.2 ≤ p.1).card := by
    apply Finset.card_bij (fun p _ => (p.2, p.1))
    · intro p hp; simpa using hp
    · rintro ⟨a, b⟩ _ ⟨c, d⟩ _ h; simp only [Prod.mk.injEq] at h ⊢; exact ⟨h.2, h.1⟩
    · rintro ⟨a, b⟩ h; exact ⟨(b, a), by simpa using h, rfl⟩
  have h3 := Finset.card_union_add_card_inter (Finset.univ.filter fun p : Fin n × Fin n => p.1 ≤ p.2)
    (Finset.univ.filter fun p : Fin n × Fin n => p.2 ≤ p.1)
  have h4 : ((Finset.univ.filter fun p : Fin n × Fin n => p.1 ≤ p.2) ∪
      (Finset.univ.filter fun p : Fin n × Fin n => p.2 ≤ p.1)) = Finset.univ := by
    ext ⟨i, j⟩
    simp [le_total]
  have h5 : ((Finset.univ.filter fun p : Fin n × Fin n => p.1 ≤ p.2) ∩
      (Finset.univ.filter fun p : Fin n × Fin n => p.2 ≤ p.1)).card = n := by
    refine Eq.trans ?_ (Finset.card_fin n)
    symm
    apply Finset.card_bij (fun i _ => (i, i))
    · intro i _; simp
    · intro a _ b _ h; exact (Prod.mk.inj h).1
    · rintro ⟨a, b⟩ h
      simp only [Finset.mem_inter, Finset.mem_filter, Finset.mem_univ, true_and] at h
      exact ⟨a, Finset.mem_univ _, by rw [le_antisymm h.1 h.2]⟩
  rw [h4, h5, Finset.card_univ, Fintype.card_prod, Fintype.card_fin] at h3
  rw [h1]
  have : n * (n + 1) = n * n + n := by ring
  omega

/-- the matrix built from a row of the right length -/
private theorem fromRow_ok {row : List ℝ} (h : row.length = (upperPositions n).length) {S : Mat n}
    (hS : fromRowToCovariance row n = .ok S) :
    (∀ i j, S i j = S j i) ∧ upperRow S = row := by
  unfold fromRowToCovariance at hS
  dsimp only at hS
  rw [if_pos (Or.inl h), if_pos h] at hS
  cases hS
  constructor
  · intro i j
    simp only [Matrix.of_apply, Matrix.transpose_apply]
    rcases lt_trichotomy i j with hij | hij | hij
    · simp [hij.le, hij.not_ge]
    · subst hij; rfl
    · simp [hij.le, hij.not_ge]
  · rw [upperRow_eq]
    apply List.ext_getElem
    · rw [List.length_map, h]
    · intro k h1 h2
      rw [List.length_map] at h1
      rw [List.getElem_map]
      have hmem : (upperPositions n)[k] ∈ upperPositions n := List.getElem_mem _
      obtain ⟨i, j, hp⟩ : ∃ i j, (upperPositions n)[k] = (i, j) := ⟨_, _, rfl⟩
      have hidx : (upperPositions n).idxOf (i, j) = k := by
        rw [← hp]; exact (nodup_upperPositions n).idxOf_getElem k h1
      have hij : i ≤ j := by rw [hp] at hmem; exact (mem_upperPositions i j).1 hmem
      simp only [hp, Matrix.of_apply, Matrix.transpose_apply]
      rcases hij.lt_or_eq with hlt | heq
      · rw [if_neg hlt.not_ge, if_pos hij, hidx, List.getElem?_eq_getElem h2]; rfl
      · subst heq
        rw [if_pos le_rfl, if_pos le_rfl, hidx, List.getElem?_eq_getElem h2]; rfl

/-- A symmetric matrix is determined by its upper triangle. -/
theorem upperRow_injective {S S' : Mat n} (h : ∀ i j, S i j = S j i) (h' : ∀ i j, S' i j = S' j i)
    (heq : upperRow S = upperRow S') : S = S' := by
  rw [upperRow_eq, upperRow_eq, List.map_inj_left] at heq
  ext i j
  rcases le_total i j with hij | hij
  · exact heq (i, j) ((mem_upperPositions i j).2 hij)
  · rw [h i j, h' i j]; exact heq (j, i) ((mem_upperPositions j i).2 hij)

/-- **C54.** A row of `n (n + 1) / 2` numbers always gives a matrix; it is symmetric and its upper triangle, read row by
row, is the given row. -/
theorem C54_packed_row (row : List ℝ) (hrow : 2 * row.length = n * (n + 1)) :
    ∃ S : Mat n, fromRowToCovariance row n = .ok S ∧ (∀ i j, S i j = S j i) ∧ upperRow S = row := by
  have h : row.length = (upperPositions n).length := by have := count_upper n; omega
  have : ∃ S : Mat n, fromRowToCovariance row n = .ok S := by
    unfold fromRowToCovariance
    dsimp only
    rw [if_pos (Or.inl h)]
    exact ⟨_, rfl⟩
  obtain ⟨S, hS⟩ := this
  exact ⟨S, hS, fromRow_ok h hS⟩

/-- **C54.** Unpacking what was packed: every symmetric matrix is recovered from its upper triangle. -/
theorem C54_round_trip (S : Mat n) (hS : ∀ i j, S i j = S j i) : fromRowToCovariance (upperRow S) n = .ok S := by
  have hlen : 2 * (upperRow S).length = n * (n + 1) := by rw [length_upperRow]; exact count_upper n
  obtain ⟨S', h, hsym, hrow⟩ := C54_packed_row (upperRow S) hlen
  rw [h, upperRow_injective hsym hS hrow]

/-- **C54.** A row of any other length, except one, is rejected. -/
theorem C54_wrong_length (row : List ℝ) (hrow : 2 * row.length ≠ n * (n + 1)) (h1 : row.length ≠ 1) :
    fromRowToCovariance row n = .error .valueError := by
  have := count_upper n
  unfold fromRowToCovariance
  dsimp only
  rw [if_neg]
  rintro (h | h) <;> omega

/-- **C54.** A single number is not rejected: it silently fills the whole matrix. -/
theorem C54_single_value (x : ℝ) : fromRowToCovariance [x] n = .ok (Matrix.of fun _ _ => x) := by
  by_cases hpos : (upperPositions n).length = 1
  · have hn : n = 1 := by
      have h2 := count_upper n
      rw [hpos] at h2
      rcases n with _ | _ | n
      · omega
      · rfl
      · nlinarith
    subst hn
    have := C54_round_trip (n := 1) (Matrix.of fun _ _ => x) (fun _ _ => rfl)
    simpa [upperRow, List.finRange_succ] using this
  · unfold fromRowToCovariance
    dsimp only
    have hx : [x].length = 1 := rfl
    rw [if_pos (Or.inr hx), if_neg (by rw [hx]; exact Ne.symm hpos)]
    congr 1
    ext i j
    have key : ∀ a b : Fin n, a ≤ b →
        ((List.replicate (upperPositions n).length (List.headD [x] 0))[(upperPositions n).idxOf (a, b)]?).getD 0 = x := by
      intro a b hab
      have : (upperPositions n).idxOf (a, b) < (upperPositions n).length :=
        List.idxOf_lt_length_of_mem ((mem_upperPositions a b).2 hab)
      rw [List.getElem?_replicate, if_pos this]
      rfl
    simp only [Matrix.of_apply, Matrix.transpose_apply]
    rcases lt_or_ge i j with hij | hij
    · rw [if_neg hij.not_ge, if_pos hij.le, key i j hij.le]
    · rw [if_pos hij, if_pos hij, key j i hij]

/-- **C54.** The matrix version treats its rows independently, in order. -/
theorem C54_matrix (M : List (List ℝ)) (hrow : ∀ row ∈ M, 2 * row.length = n * (n + 1)) :
    ∃ Ss : List (Mat n), fromRowMatrixToCovariance M n = .ok Ss ∧ (∀ S ∈ Ss, ∀ i j, S i j = S j i) ∧
      Ss.map upperRow = M := by
  induction M with
  | nil => exact ⟨[], rfl, by simp, rfl⟩
  | cons row M ih =>
    obtain ⟨Ss, h1, h2, h3⟩ := ih fun r hr => hrow r (List.mem_cons_of_mem _ hr)
    obtain ⟨S, g1, g2, g3⟩ := C54_packed_row row (hrow row List.mem_cons_self)
    refine ⟨S :: Ss, ?_, ?_, ?_⟩
    · unfold fromRowMatrixToCovariance at h1 ⊢
      rw [List.mapM_cons, g1, h1]; rfl
    · intro S' hS'
      rcases List.mem_cons.1 hS' with rfl | h
      · exact g2
      · exact h2 S' h
    · rw [List.map_cons, g3, h3]

/-- The packed row `1, 2, 3` is the matrix with rows `1, 2` and `2, 3`. -/
example : fromRowToCovariance [1, 2, 3] 2 = .ok (!![1, 2; 2, 3] : Mat 2) := by
  have h := C54_round_trip (!![1, 2; 2, 3] : Mat 2) (by intro i j; fin_cases i <;> fin_cases j <;> rfl)
  have : upperRow (!![1, 2; 2, 3] : Mat 2) = [1, 2, 3] := by
    simp [upperRow, List.finRange_succ, List.filter_cons]
  rwa [this] at h

end CovPred
