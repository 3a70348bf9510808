import Verif.Lemmas.Loop

/-
The constructor on arbitrary dictionaries.
-/
namespace CovPred
open Matrix

set_option linter.unusedSectionVars false

variable {τ : Type} [LinearOrder τ] {n K : ℕ}

theorem usable_of_posDef {S : Mat n} (h : S.PosDef) : Usable S :=
  ⟨h.det_pos.ne', by rw [symLower_of_symm (posDef_symm h.inv)]; exact h.inv⟩

theorem posDef_of_usable {S : Mat n} (hs : Sᵀ = S) (h : Usable S) : S.PosDef := by
  have h1 := h.posDef
  have hinv : (S⁻¹)ᵀ = S⁻¹ := by rw [Matrix.transpose_nonsing_inv, hs]
  rw [symLower_of_symm hinv] at h1
  have := h1.inv
  rwa [Matrix.nonsing_inv_nonsing_inv _ (isUnit_iff_ne_zero.mpr h.invertible)] at this

/-- one entry of `_cholesky_precision` -/
noncomputable def precEntry (p : τ × Mat n) : Except Err (τ × Mat n) := do
  let P ← inv? p.2
  let L ← chol? P
  pure (p.1, L)

theorem precEntry_ok_iff (p q : τ × Mat n) :
    precEntry p = .ok q ↔ q.1 = p.1 ∧ p.2.det ≠ 0 ∧ IsChol q.2 (symLower p.2⁻¹) := by
  unfold precEntry
  by_cases hd : p.2.det = 0
  · rw [inv?_of_eq hd]
    constructor
    · intro h; cases h
    · intro h; exact absurd hd h.2.1
  · rw [inv?_of_ne hd, ok_bind]
    rcases hc : chol? p.2⁻¹ with e | L
    · constructor
      · intro h; cases h
      · intro h
        have := h.2.2
        rw [← chol?_ok_iff, hc] at this
        cases this
    · rw [chol?_ok_iff] at hc
      constructor
      · intro h
        cases h
        exact ⟨rfl, hd, hc⟩
      · intro h
        obtain ⟨h1, _, h2⟩ := h
        have h3 := h2.unique hc
        obtain ⟨a, L'⟩ := q
        simp only at h1 h3
        rw [h3, h1]
        rfl

theorem precEntry_error {p : τ × Mat n} {e : Err} (h : precEntry p = .error e) : e = .linAlgError ∧ ¬ Usable p.2 := by
  unfold precEntry at h
  by_cases hd : p.2.det = 0
  · rw [inv?_of_eq hd] at h
    cases h
    exact ⟨rfl, fun hu => hu.invertible hd⟩
  · rw [inv?_of_ne hd, ok_bind] at h
    rcases hc : chol? p.2⁻¹ with e' | L
    · have : e' = .linAlgError := by
        rcases chol?_cases p.2⁻¹ with h' | ⟨L, h'⟩
        · rw [hc] at h'; cases h'; rfl
        · rw [hc] at h'; cases h'
      subst this
      rw [hc] at h
      cases h
      rw [chol?_error_iff] at hc
      exact ⟨rfl, fun hu => hc hu.posDef⟩
    · rw [hc] at h; cases h

theorem choleskyPrecision_eq (d : Dict τ (Mat n)) : choleskyPrecision d = d.mapM precEntry := rfl

theorem choleskyPrecision_lookup {d d' : Dict τ (Mat n)} (h : choleskyPrecision d = .ok d') (t : τ) :
    (d'.lookup t = none ↔ d.lookup t = none) ∧
    ∀ L, d'.lookup t = some L → ∃ S, d.lookup t = some S ∧ S.det ≠ 0 ∧ IsChol L (symLower S⁻¹) := by
  rw [choleskyPrecision_eq, mapM_ok_iff_forall₂] at h
  induction h with
  | nil => simp
  | @cons p q d d' h1 h2 ih =>
    obtain ⟨a, S⟩ := p
    obtain ⟨b, L⟩ := q
    rw [precEntry_ok_iff] at h1
    obtain ⟨rfl, hd, hL⟩ := h1
    simp only [List.lookup_cons]
    by_cases hta : t = b
    · subst hta
      simp only [beq_self_eq_true]
      refine ⟨by simp, fun L' hL' => ⟨S, rfl, hd, ?_⟩⟩
      cases hL'
      exact hL
    · have : (t == b) = false := by simpa using hta
      simp only [this]
      exact ih

theorem choleskyPrecision_keys {d d' : Dict τ (Mat n)} (h : choleskyPrecision d = .ok d') : d'.keys = d.keys := by
  rw [choleskyPrecision_eq, mapM_ok_iff_forall₂] at h
  unfold Dict.keys
  induction h with
  | nil => rfl
  | cons h1 h2 ih =>
    rw [precEntry_ok_iff] at h1
    rw [List.map_cons, List.map_cons, ih, h1.1]

theorem choleskyPrecision_ok {d : Dict τ (Mat n)} :
    (∃ d', choleskyPrecision d = .ok d') ↔ ∀ p ∈ d, Usable p.2 := by
  constructor
  · rintro ⟨d', h⟩
    rw [choleskyPrecision_eq, mapM_ok_iff_forall₂] at h
    induction h with
    | nil => simp
    | cons h1 h2 ih =>
      rw [precEntry_ok_iff] at h1
      intro p hp
      rcases List.mem_cons.mp hp with rfl | hp
      · exact ⟨h1.2.1, h1.2.2.posDef⟩
      · exact ih p hp
  · intro h
    rcases hres : choleskyPrecision d with e | d'
    · rw [choleskyPrecision_eq] at hres
      obtain ⟨p, hp, hpe⟩ := mapM_error _ _ _ hres
      exact absurd (h p hp) (precEntry_error hpe).2
    · exact ⟨d', rfl⟩

theorem choleskyPrecision_error {d : Dict τ (Mat n)} {e : Err} (h : choleskyPrecision d = .error e) :
    e = .linAlgError ∧ ∃ p ∈ d, ¬ Usable p.2 := by
  rw [choleskyPrecision_eq] at h
  obtain ⟨p, hp, hpe⟩ := mapM_error _ _ _ h
  exact ⟨(precEntry_error hpe).1, p, hp, (precEntry_error hpe).2⟩

theorem lookup_none_iff {A : Type} (d : Dict τ A) (t : τ) : d.lookup t = none ↔ t ∉ d.keys := by
  unfold Dict.keys
  induction d with
  | nil => simp
  | cons p d ih =>
    rw [List.lookup_cons]
    by_cases h : t = p.1
    · subst h; simp
    · have : (t == p.1) = false := by simpa using h
      rw [this, List.map_cons, List.mem_cons]
      simp only [ih, not_or, h, not_false_eq_true, true_and]

theorem lookup_some_of_mem {A : Type} {d : Dict τ A} {t : τ} (h : t ∈ d.keys) : ∃ a, d.lookup t = some a := by
  rcases hl : d.lookup t with _ | a
  · rw [lookup_none_iff] at hl; exact absurd h hl
  · exact ⟨a, rfl⟩

theorem mem_frameIndex {Ls : Fin K → Dict τ (Mat n)} {t : τ} : t ∈ frameIndex Ls ↔ ∃ k, t ∈ (Ls k).keys := by
  unfold frameIndex
  have key : ∀ (l : List (Fin K)) (acc : List τ),
      t ∈ l.foldl (fun idx k => idx ++ (Ls k).keys.filter fun t => t ∉ idx) acc ↔
        t ∈ acc ∨ ∃ k ∈ l, t ∈ (Ls k).keys := by
    intro l
    induction l with
    | nil => simp
    | cons k l ih =>
      intro acc
      rw [List.foldl_cons, ih]
      simp only [List.mem_append, List.mem_filter, decide_not, Bool.not_eq_eq_eq_not, Bool.not_true,
        decide_eq_false_iff_not, List.mem_cons]
      constructor
      · rintro ((h | ⟨h, _⟩) | ⟨k', h1, h2⟩)
        · exact Or.inl h
        · exact Or.inr ⟨k, Or.inl rfl, h⟩
        · exact Or.inr ⟨k', Or.inr h1, h2⟩
      · rintro (h | ⟨k', rfl | h1, h2⟩)
        · exact Or.inl (Or.inl h)
        · by_cases ht : t ∈ acc
          · exact Or.inl (Or.inl ht)
          · exact Or.inl (Or.inr ⟨h2, ht⟩)
        · exact Or.inr ⟨k', h1, h2⟩
  rw [key]
  simp

/-- the means of the experts as the constructor keeps them -/
theorem checkMeans_ok {sigmas : Fin K → Dict τ (Mat n)} {means : Option (Fin K → Option (Dict τ (Vec n)))}
    {m : Fin K → Dict τ (Vec n)} (h : checkMeans sigmas means = .ok m) (k : Fin K) :
    (∀ t, t ∈ (sigmas k).keys ↔ t ∈ (m k).keys) ∧
    ((means = none ∧ ∀ t mu, (m k).lookup t = some mu → mu = 0) ∨ ∃ ms, means = some ms ∧ ms k = some (m k)) := by
  unfold checkMeans at h
  cases means with
  | none =>
    cases h
    refine ⟨fun t => by simp [Dict.keys], Or.inl ⟨rfl, ?_⟩⟩
    intro t mu hmu
    have : ∀ d : Dict τ (Mat n), (d.map fun p => (p.1, (0 : Vec n))).lookup t = some mu → mu = 0 := by
      intro d
      induction d with
      | nil => simp
      | cons p d ih =>
        rw [List.map_cons, List.lookup_cons]
        split
        · intro h; cases h; rfl
        · exact ih
    exact this _ hmu
  | some ms =>
    simp only [finM_ok_iff] at h
    have hk := h k
    split at hk
    · cases hk
    · next m' hm' =>
      split at hk
      · next hc =>
        cases hk
        exact ⟨fun t => ⟨hc.1 t, hc.2 t⟩, Or.inr ⟨ms, rfl, hm'⟩⟩
      · cases hk

/-- a row of the constructor's frames -/
structure Row.From (sigmas : Fin K → Dict τ (Mat n)) (m : Fin K → Dict τ (Vec n)) (row : Row τ n K) : Prop where
  factor : ∀ k, ∃ S, (sigmas k).lookup row.time = some S ∧ S.det ≠ 0 ∧ IsChol (row.L k) (symLower S⁻¹)
  nu : ∀ k, ∃ mu, (m k).lookup row.time = some mu ∧ row.nu k = (row.L k)ᵀ *ᵥ mu

theorem frameRow_ok {Ls : Fin K → Dict τ (Mat n)} {m : Fin K → Dict τ (Vec n)} {t : τ} {row : Row τ n K}
    (h : frameRow Ls m t = .ok row) :
    row.time = t ∧ ∀ k, (Ls k).lookup t = some (row.L k) ∧ ∃ mu, (m k).lookup t = some mu ∧ row.nu k = (row.L k)ᵀ *ᵥ mu := by
  unfold frameRow at h
  rcases hf : finM (fun k => frameCell (Ls k) (m k) t) with e | cells
  · rw [hf] at h; cases h
  · rw [hf] at h
    cases h
    refine ⟨rfl, fun k => ?_⟩
    rw [finM_ok_iff] at hf
    have hk := hf k
    unfold frameCell at hk
    split at hk
    · cases hk
    · next L hL =>
      split at hk
      · cases hk
      · next mu hmu =>
        injection hk with hk
        simp only [← hk, hL, hmu]
        exact ⟨trivial, mu, rfl, rfl⟩

theorem fromSigmas_inv {sigmas : Fin K → Dict τ (Mat n)} {returns : Dict τ (Vec n)}
    {means : Option (Fin K → Option (Dict τ (Vec n)))} {c : Comb τ n K} (h : fromSigmas sigmas returns means = .ok c) :
    ∃ m Ls, checkMeans sigmas means = .ok m ∧ (∀ k, choleskyPrecision (sigmas k) = .ok (Ls k)) ∧
      List.Forall₂ (fun t row => frameRow Ls m t = .ok row) (frameIndex Ls) c.rows ∧ c.returns = returns := by
  unfold fromSigmas at h
  rcases h1 : checkMeans sigmas means with e | m
  · rw [h1] at h; cases h
  · rw [h1, ok_bind] at h
    rcases h2 : finM (fun k => choleskyPrecision (sigmas k)) with e | Ls
    · rw [h2] at h; cases h
    · rw [h2, ok_bind] at h
      rcases h3 : (frameIndex Ls).mapM (frameRow Ls m) with e | rows
      · rw [h3] at h; cases h
      · rw [h3] at h
        cases h
        exact ⟨m, Ls, rfl, (finM_ok_iff _ _).mp h2, (mapM_ok_iff_forall₂ _ _ _).mp h3, rfl⟩

theorem fromSigmas_rows {sigmas : Fin K → Dict τ (Mat n)} {returns : Dict τ (Vec n)}
    {means : Option (Fin K → Option (Dict τ (Vec n)))} {c : Comb τ n K} (h : fromSigmas sigmas returns means = .ok c) :
    ∃ m, checkMeans sigmas means = .ok m ∧ ∀ row ∈ c.rows, row.From sigmas m := by
  obtain ⟨m, Ls, hm, hL, hrows, _⟩ := fromSigmas_inv h
  refine ⟨m, hm, ?_⟩
  intro row hrow
  obtain ⟨i, hi, rfl⟩ := List.getElem_of_mem hrow
  rw [List.forall₂_iff_get] at hrows
  have := hrows.2 i (by rw [hrows.1]; exact hi) hi
  have hf := frameRow_ok this
  constructor
  · intro k
    exact (choleskyPrecision_lookup (hL k) _).2 _ (by rw [show (c.rows[i]).time = _ from hf.1]; exact (hf.2 k).1)
  · intro k
    obtain ⟨mu, h1, h2⟩ := (hf.2 k).2
    exact ⟨mu, by rw [show (c.rows[i]).time = _ from hf.1]; exact h1, h2⟩

/-! ### results -/

/-- Every result that is yielded blends a row with weights the solver returned. -/
theorem solveLoop_mem {solver : Solver n K} {rows : List (Row τ n K)} {w : ℕ} {r : Result τ n K} :
    ∀ (ps : List (τ × Params n K)) (hist : List (Params n K)), some r ∈ (solveLoop solver rows w hist ps).items →
      ∃ hist p, solver (hist ++ [p]) = .weights r.weights ∧ ∃ t x, blendAt rows t x = .ok r := by
  intro ps
  induction ps with
  | nil => intro hist h; simp [solveLoop] at h
  | cons q ps ih =>
    intro hist h
    obtain ⟨t, p⟩ := q
    unfold solveLoop at h
    split at h
    · simp at h
    · simp only at h
      split at h
      · simp at h
      · simp only [Trace.push, List.mem_cons, reduceCtorEq, false_or] at h
        exact ih _ h
      · next x hx =>
        split at h
        · simp at h
        · next r' hr' =>
          simp only [Trace.push, List.mem_cons, Option.some.injEq] at h
          rcases h with rfl | h
          · refine ⟨hist, p, ?_, t, x, hr'⟩
            have : r.weights = x := by
              unfold blendAt at hr'
              split at hr'
              · cases hr'
              · next row _ =>
                simp only at hr'
                rcases h1 : inv? (∑ k, x k • row.L k)ᵀ with e | M
                · rw [h1] at hr'; cases hr'
                · rw [h1, ok_bind] at hr'
                  rcases h2 : inv? ((∑ k, x k • row.L k) * (∑ k, x k • row.L k)ᵀ) with e | M
                  · rw [h2] at hr'; cases hr'
                  · rw [h2] at hr'
                    cases hr'; rfl
            rw [this]; exact hx
          · exact ih _ h

theorem solve_mem {c : Comb τ n K} {solver : Solver n K} {window : Option ℕ} {times : Option (List τ)}
    {r : Result τ n K} (h : some r ∈ (c.solve solver window times).items) :
    ∃ hist p, solver (hist ++ [p]) = .weights r.weights ∧ ∃ t x, blendAt c.rows t x = .ok r := by
  unfold Comb.solve at h
  split at h
  · simp at h
  · exact solveLoop_mem _ _ h

theorem inv?_ok {M N : Mat n} (h : inv? M = .ok N) : M.det ≠ 0 ∧ N = M⁻¹ := by
  by_cases hd : M.det = 0
  · rw [inv?_of_eq hd] at h; cases h
  · rw [inv?_of_ne hd] at h; cases h; exact ⟨hd, rfl⟩

/-- a blended row -/
theorem blendAt_inv {rows : List (Row τ n K)} {t : τ} {x : Vec K} {r : Result τ n K} (h : blendAt rows t x = .ok r) :
    ∃ row ∈ rows, row.time = r.time ∧ r.weights = x ∧ (∑ k, r.weights k • row.L k).det ≠ 0 ∧
      r.covariance = ((∑ k, r.weights k • row.L k) * (∑ k, r.weights k • row.L k)ᵀ)⁻¹ ∧
      (∑ k, r.weights k • row.L k)ᵀ *ᵥ r.mean = ∑ k, r.weights k • row.nu k := by
  unfold blendAt at h
  split at h
  · cases h
  · next row hfind =>
    simp only at h
    rcases h1 : inv? (∑ k, x k • row.L k)ᵀ with e | M
    · rw [h1] at h; cases h
    · rw [h1, ok_bind] at h
      rcases h2 : inv? ((∑ k, x k • row.L k) * (∑ k, x k • row.L k)ᵀ) with e | N
      · rw [h2] at h; cases h
      · rw [h2] at h
        cases h
        have hd := (inv?_ok h1).1
        rw [Matrix.det_transpose] at hd
        refine ⟨row, List.mem_of_find?_eq_some hfind, by simpa using List.find?_some hfind, rfl, hd, (inv?_ok h2).2, ?_⟩
        simp only
        rw [(inv?_ok h1).2, Matrix.mulVec_mulVec, Matrix.mul_nonsing_inv _ (by
          rw [Matrix.det_transpose]; exact isUnit_iff_ne_zero.mpr hd), Matrix.one_mulVec]

end CovPred
