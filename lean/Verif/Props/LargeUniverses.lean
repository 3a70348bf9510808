import Verif.Model.LargeUniverses
import Verif.Props.Packed
import Verif.Lemmas.FromEwmas
import Verif.Lemmas.Combination
import Verif.Lemmas.Backtests

/-
Properties of the functions of the notebook on large universes (C143, C144).
-/
set_option linter.unusedSectionVars false
namespace CovPred
open Matrix

variable {τ : Type} [DecidableEq τ] {n : ℕ}

/-! ### C143 -/

private theorem sqrt_tri {l n : ℕ} (h : 2 * l = n * (n + 1)) : Nat.sqrt (2 * l) = n := by
  rw [h]
  refine le_antisymm (Nat.lt_succ_iff.1 (Nat.sqrt_lt.2 ?_)) (Nat.le_sqrt.2 ?_) <;> nlinarith

private theorem triu_eq (S : Mat n) : triuValues S = upperRow S := (upperRow_eq S).symm

private theorem len_upper (S : Mat n) : 2 * (upperRow S).length = n * (n + 1) := by
  rw [length_upperRow]; exact count_upper n

/-- the matrix that `from_upper_triangular_to_full` builds -/
private def mirrored (n : ℕ) (v : List ℝ) : Mat n :=
  Matrix.of fun i j => if j ≤ i then (v[(upperPositions n).idxOf (j, i)]?).getD 0 else
    (Matrix.of fun i j => if i ≤ j then (v[(upperPositions n).idxOf (i, j)]?).getD 0 else 0 : Mat n) i j

private theorem mirrored_spec (v : List ℝ) (h : v.length = (upperPositions n).length) :
    (∀ i j, mirrored n v i j = mirrored n v j i) ∧ upperRow (mirrored n v) = v := by
  constructor
  · intro i j
    simp only [mirrored, Matrix.of_apply]
    rcases lt_trichotomy i j with hij | hij | hij
    · simp [hij.le, hij.not_ge]
    · subst hij; rfl
    · simp [hij.le, hij.not_ge]
  · rw [upperRow_eq]
    apply List.ext_getElem
    · rw [List.length_map, h]
    · intro k h1 h2
      rw [List.length_map] at h1
      rw [List.getElem_map]
      have hmem : (upperPositions n)[k] ∈ upperPositions n := List.getElem_mem _
      obtain ⟨i, j, hp⟩ : ∃ i j, (upperPositions n)[k] = (i, j) := ⟨_, _, rfl⟩
      have hidx : (upperPositions n).idxOf (i, j) = k := by
        rw [← hp]; exact (nodup_upperPositions n).idxOf_getElem k h1
      have hij : i ≤ j := by rw [hp] at hmem; exact (mem_upperPositions i j).1 hmem
      simp only [hp, mirrored, Matrix.of_apply]
      rcases hij.lt_or_eq with hlt | heq
      · rw [if_neg hlt.not_ge, if_pos hij, hidx, List.getElem?_eq_getElem h2]; rfl
      · subst heq
        rw [if_pos le_rfl, hidx, List.getElem?_eq_getElem h2]; rfl

private theorem unpack_ok {v : List ℝ} (h : 2 * v.length = n * (n + 1)) :
    fromUpperTriangularToFull v = .ok ⟨n, mirrored n v⟩ := by
  have hs := sqrt_tri h
  have hc := count_upper n
  unfold fromUpperTriangularToFull
  rw [hs]
  dsimp only
  have hl : v.length = (upperPositions n).length := by omega
  rw [if_pos (Or.inl hl), if_pos hl]
  rfl

/-- **C143.** The upper triangle of a matrix of ANY size, given as the list of its entries row by row, is unpacked to a
symmetric matrix of that size, whose upper triangle is the list; a list whose length is not a triangular number is
rejected. -/
theorem C143_unpack (v : List ℝ) :
    (∀ n : ℕ, 2 * v.length = n * (n + 1) →
      ∃ S : Mat n, fromUpperTriangularToFull v = .ok ⟨n, S⟩ ∧ (∀ i j, S i j = S j i) ∧ upperRow S = v) ∧
    ((∀ n : ℕ, 2 * v.length ≠ n * (n + 1)) → fromUpperTriangularToFull v = .error .valueError) := by
  constructor
  · intro n h
    have hc := count_upper n
    exact ⟨_, unpack_ok h, mirrored_spec v (by omega)⟩
  · intro h
    unfold fromUpperTriangularToFull
    dsimp only
    rw [if_neg]
    rintro (h' | h')
    · have hc := count_upper (Nat.sqrt (2 * v.length))
      rw [← h'] at hc
      exact h _ hc
    · exact h 1 (by rw [h'])

private theorem csvItem_ok (p : τ × Mat n) :
    csvItem n (p.1, triuValues p.2) = .ok (p.1, mirrored n (upperRow p.2)) := by
  unfold csvItem
  rw [triu_eq, unpack_ok (len_upper p.2), ok_bind]
  unfold withAssets
  rw [dif_pos rfl]
  rfl

private theorem load_saved (files : Files τ) (covs : Dict τ (Mat n)) (name : String) (hk : covs.keys.Nodup) :
    fromCsvToCov (saveCovToCsv files covs name) name n =
      .ok (covs.map fun p => (p.1, mirrored n (upperRow p.2))) := by
  unfold fromCsvToCov saveCovToCsv
  rw [if_pos rfl]
  dsimp only
  have : (covs.map fun p => (p.1, triuValues p.2)).mapM (csvItem n) =
      .ok (covs.map fun p => (p.1, mirrored n (upperRow p.2))) := by
    have hh := mapM_ok_of (fun p : τ × Mat n => csvItem n (p.1, triuValues p.2))
      (fun p => (p.1, mirrored n (upperRow p.2))) covs fun p _ => csvItem_ok p
    rw [List.mapM_map]
    exact hh
  rw [this, ok_bind, dictOf_nodup]
  · rfl
  · rw [List.map_map]; exact hk

/-- **C143.** What was saved is read back: the same dates in the same order, each with the symmetric matrix that agrees
with the saved one on and above the diagonal - so exactly the saved matrices if they are symmetric. Nothing that was
saved under another name changes, and reading with another number of assets is rejected. -/
theorem C143_save_and_load (files : Files τ) (covs : Dict τ (Mat n)) (name : String) (hk : covs.keys.Nodup) :
    (∃ d : Dict τ (Mat n), fromCsvToCov (saveCovToCsv files covs name) name n = .ok d ∧
      List.Forall₂ (fun p q => q.1 = p.1 ∧ (∀ i j, q.2 i j = q.2 j i) ∧ ∀ i j, i ≤ j → q.2 i j = p.2 i j) covs d) ∧
    ((∀ p ∈ covs, ∀ i j, p.2 i j = p.2 j i) →
      fromCsvToCov (saveCovToCsv files covs name) name n = .ok covs) ∧
    (∀ other, other ≠ name → ∀ m, fromCsvToCov (saveCovToCsv files covs name) other m = fromCsvToCov files other m) ∧
    (∀ m, m ≠ n → covs ≠ [] → fromCsvToCov (saveCovToCsv files covs name) name m = .error .valueError) := by
  have hl := load_saved files covs name hk
  have hms : ∀ S : Mat n, (∀ i j, mirrored n (upperRow S) i j = mirrored n (upperRow S) j i) ∧
      upperRow (mirrored n (upperRow S)) = upperRow S := fun S => mirrored_spec _ (length_upperRow S)
  refine ⟨⟨_, hl, ?_⟩, ?_, ?_, ?_⟩
  · rw [List.forall₂_map_right_iff, List.forall₂_same]
    intro p _
    refine ⟨rfl, (hms p.2).1, fun i j hij => ?_⟩
    have := (hms p.2).2
    rw [upperRow_eq, upperRow_eq p.2, List.map_inj_left] at this
    have := this (i, j) ((mem_upperPositions i j).2 hij)
    rw [← upperRow_eq p.2] at this
    exact this
  · intro hs
    rw [hl]
    congr 1
    conv_rhs => rw [← List.map_id covs]
    apply List.map_congr_left
    intro p hp
    rw [upperRow_injective (hms p.2).1 (hs p hp) (hms p.2).2]
    rfl
  · intro other ho m
    unfold fromCsvToCov saveCovToCsv
    rw [if_neg ho]
  · intro m hm hne
    unfold fromCsvToCov saveCovToCsv
    rw [if_pos rfl]
    dsimp only
    obtain ⟨p, l, rfl⟩ := List.exists_cons_of_ne_nil hne
    rw [List.map_cons, List.mapM_cons]
    have : csvItem m (p.1, triuValues p.2) = .error .valueError := by
      unfold csvItem
      rw [triu_eq, unpack_ok (len_upper p.2), ok_bind]
      unfold withAssets
      rw [dif_neg (fun h : n = m => hm h.symm)]
      rfl
    rw [this]
    rfl

/-- the files after several calls of `save_cov_to_csv`, with matrices of any sizes -/
def saveAll (files : Files τ) (saves : List ((n : ℕ) × Dict τ (Mat n) × String)) : Files τ :=
  saves.foldl (fun f s => saveCovToCsv f s.2.1 s.2.2) files

theorem saveAll_other (saves : List ((n : ℕ) × Dict τ (Mat n) × String)) (files : Files τ) {name : String}
    (h : ∀ s ∈ saves, s.2.2 ≠ name) : saveAll files saves name = files name := by
  induction saves generalizing files with
  | nil => rfl
  | cons s saves ih =>
    have := ih (saveCovToCsv files s.2.1 s.2.2) fun q hq => h q (List.mem_cons_of_mem _ hq)
    unfold saveAll at this ⊢
    rw [List.foldl_cons, this]
    unfold saveCovToCsv
    rw [if_neg fun e => h s List.mem_cons_self e.symm]

/-- **C143.** Histories: a name that was never saved raises `FileNotFoundError` (for every number of assets); otherwise the last
save under the name decides, whatever was saved before or, under other names, after it. -/
theorem C143_history (files : Files τ) (saves later : List ((n : ℕ) × Dict τ (Mat n) × String)) (name : String) :
    ((∀ s ∈ saves, s.2.2 ≠ name) → files name = none →
      ∀ m, fromCsvToCov (saveAll files saves) name m = .error .other) ∧
    ((∀ s ∈ later, s.2.2 ≠ name) → ∀ (n : ℕ) (covs : Dict τ (Mat n)), covs.keys.Nodup →
      (∀ p ∈ covs, ∀ i j, p.2 i j = p.2 j i) →
      fromCsvToCov (saveAll files (saves ++ ⟨n, covs, name⟩ :: later)) name n = .ok covs) := by
  constructor
  · intro h h0 m
    unfold fromCsvToCov
    rw [saveAll_other saves files h, h0]
  · intro h n covs hk hs
    have e : saveAll files (saves ++ ⟨n, covs, name⟩ :: later)
        = saveAll (saveCovToCsv (saveAll files saves) covs name) later := by
      unfold saveAll
      rw [List.foldl_append, List.foldl_cons]
    have := (C143_save_and_load (saveAll files saves) covs name hk).2.1 hs
    unfold fromCsvToCov at this ⊢
    rw [e, saveAll_other later _ h]
    exact this

/-- Two saves under one name and one under another: the second counts. -/
example : fromCsvToCov (saveAll (fun _ => none) [⟨1, [((7 : ℕ), (!![5] : Mat 1))], "a"⟩,
    ⟨2, [(7, (!![2, 1; 1, 3] : Mat 2))], "a"⟩, ⟨1, [(7, (!![4] : Mat 1))], "b"⟩]) "a" 2
      = .ok [((7 : ℕ), (!![2, 1; 1, 3] : Mat 2))] := by
  refine (C143_history (fun _ => none) [⟨1, [((7 : ℕ), (!![5] : Mat 1))], "a"⟩] [⟨1, [(7, (!![4] : Mat 1))], "b"⟩] "a").2
    (by simp) 2 _ (by simp [Dict.keys]) ?_
  intro p hp i j
  rw [List.mem_singleton] at hp
  subst hp
  fin_cases i <;> fin_cases j <;> rfl

/-- A 2 x 2 matrix is saved as three numbers and read back. -/
example : fromCsvToCov (saveCovToCsv (fun _ => none) [(7, (!![2, 1; 1, 3] : Mat 2))] "a") "a" 2 =
    .ok [((7 : ℕ), (!![2, 1; 1, 3] : Mat 2))] := by
  refine (C143_save_and_load _ _ _ (by simp [Dict.keys])).2.1 ?_
  intro p hp i j
  rw [List.mem_singleton] at hp
  subst hp
  fin_cases i <;> fin_cases j <;> rfl

/-- Four numbers are not a triangle, ten are one. -/
example : fromUpperTriangularToFull [1, 2, 3, 4] = .error .valueError :=
  (C143_unpack _).2 fun n h => by
    simp only [List.length_cons, List.length_nil] at h
    have : n ≤ 2 := by by_contra hn; nlinarith [Nat.lt_of_not_le hn]
    interval_cases n <;> omega

example : ∃ S : Mat 4, fromUpperTriangularToFull [1, 2, 3, 4, 5, 6, 7, 8, 9, 10] = .ok ⟨4, S⟩ :=
  let ⟨S, h, _⟩ := (C143_unpack [1, 2, 3, 4, 5, 6, 7, 8, 9, 10]).1 4 rfl
  ⟨S, h⟩

/-! ### C144 -/

/-- **C144.** For a dictionary of symmetric matrices `get_choleskys` returns two dictionaries if and only if every matrix
is positive definite. Both have the dates of the argument in its order, and for each date the factor is lower triangular
with a positive diagonal, the vector is zero, and `F Fᵀ + diag(d)` is the covariance. Otherwise it raises
`LinAlgError`. -/
theorem C144_get_choleskys (covs : Dict τ (Mat n)) (hs : ∀ p ∈ covs, ∀ i j, p.2 i j = p.2 j i) :
    ((∀ p ∈ covs, p.2.PosDef) →
      ∃ F d, getCholeskys covs = .ok (F, d) ∧
        List.Forall₂ (fun p q => q.1 = p.1 ∧ (∀ i j, i < j → q.2 i j = 0) ∧ (∀ i, 0 < q.2 i i)) covs F ∧
        List.Forall₂ (fun p q => q.1 = p.1 ∧ q.2 = 0) covs d ∧
        ∀ t S, (t, S) ∈ covs → covs.keys.Nodup → ∃ L v, F.lookup t = some L ∧ d.lookup t = some v ∧
          L * Lᵀ + diagonal v = S) ∧
    ((∃ p ∈ covs, ¬ p.2.PosDef) → getCholeskys covs = .error .linAlgError) := by
  have hsym : ∀ p ∈ covs, symLower p.2 = p.2 := fun p hp => symLower_of_symm (by
    ext i j; exact (hs p hp j i))
  constructor
  · intro hpd
    have hit : ∀ p ∈ covs, choleskyItem p = .ok (p.1, (cholFactor p.2, fun _ => 0)) := by
      intro p hp
      unfold choleskyItem
      rw [chol?_eq (hpd p hp), ok_bind]
      rfl
    have hm := mapM_ok_of choleskyItem _ covs hit
    have hch : ∀ p ∈ covs, IsChol (cholFactor p.2) p.2 := fun p hp => by
      have := chol?_ok_iff.1 (chol?_eq (hpd p hp))
      rwa [hsym p hp] at this
    refine ⟨_, _, by unfold getCholeskys; rw [hm, ok_bind]; rfl, ?_, ?_, ?_⟩
    · rw [List.map_map, List.forall₂_map_right_iff, List.forall₂_same]
      exact fun p hp => ⟨rfl, fun i j hij => (hch p hp).lower i j hij, fun i => (hch p hp).pos i⟩
    · rw [List.map_map, List.forall₂_map_right_iff, List.forall₂_same]
      exact fun p hp => ⟨rfl, rfl⟩
    · intro t S hmem hk
      have lk : ∀ {B : Type} (f : Mat n → B), (covs.map fun p => (p.1, f p.2)).lookup t = some (f S) := by
        intro B f
        clear hch hm hit hpd hsym hs
        induction covs with
        | nil => cases hmem
        | cons p l ih =>
          rw [Dict.keys, List.map_cons, List.nodup_cons] at hk
          rw [List.map_cons, List.lookup_cons]
          rcases List.mem_cons.1 hmem with h | h
          · rw [← h]; simp
          · have : t ≠ p.1 := by rintro rfl; exact hk.1 (List.mem_map.2 ⟨_, h, rfl⟩)
            have hb : (t == p.1) = false := by simpa using this
            rw [hb]
            exact ih h hk.2
      refine ⟨cholFactor S, fun _ => 0, ?_, ?_, ?_⟩
      · rw [List.map_map]; exact lk cholFactor
      · rw [List.map_map]; exact lk fun _ => fun _ => 0
      · rw [(hch _ hmem).eq]
        ext i j
        rcases eq_or_ne i j with rfl | h <;> simp [*]
  · rintro ⟨p, hp, hnot⟩
    unfold getCholeskys
    cases hm : covs.mapM choleskyItem with
    | ok items =>
      exfalso
      rw [mapM_ok_iff_forall₂] at hm
      obtain ⟨q, _, hq⟩ := forall₂_mem_left hm hp
      unfold choleskyItem at hq
      rw [bind_ok_iff _ _ _] at hq
      obtain ⟨L, hL, _⟩ := hq
      rw [chol?_ok_iff, hsym p hp] at hL
      exact hnot hL.posDef
    | error e =>
      obtain ⟨q, _, hq⟩ := mapM_error _ _ _ hm
      unfold choleskyItem at hq
      have : e = .linAlgError := by
        rcases chol?_cases q.2 with hL | ⟨L, hL⟩
        · rw [hL] at hq
          cases hq
          rfl
        · rw [hL, ok_bind] at hq
          cases hq
      subst this
      rfl

/-- The identity is factored; a matrix of zeros is not. -/
example : (∃ F d, getCholeskys [((7 : ℕ), (1 : Mat 2))] = .ok (F, d)) ∧
    getCholeskys [((7 : ℕ), (1 : Mat 2)), (8, 0)] = .error .linAlgError := by
  constructor
  · obtain ⟨F, d, h, _⟩ := (C144_get_choleskys [((7 : ℕ), (1 : Mat 2))] (by
      intro p hp i j
      rw [List.mem_singleton] at hp
      subst hp
      fin_cases i <;> fin_cases j <;> rfl)).1 (by
      intro p hp
      rw [List.mem_singleton] at hp
      subst hp
      exact Matrix.PosDef.one)
    exact ⟨F, d, h⟩
  · refine (C144_get_choleskys [((7 : ℕ), (1 : Mat 2)), (8, 0)] (by
      intro p hp i j
      rw [List.mem_cons, List.mem_singleton] at hp
      rcases hp with rfl | rfl <;> fin_cases i <;> fin_cases j <;> rfl)).2 ⟨(8, 0), by simp, fun h => ?_⟩
    have := h.det_pos
    simp at this

end CovPred
