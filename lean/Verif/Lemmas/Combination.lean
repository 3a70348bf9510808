import Verif.Model.Combination
import Verif.Spec.Combination
import Verif.Lemmas.LinAlg

/-
`combination.py` on a panel: the constructor and the preparation of `solve` in closed form.
-/
namespace CovPred
open Matrix

set_option linter.unusedSectionVars false

variable {τ : Type} [LinearOrder τ] {n K : ℕ}

/-! ### loops -/

theorem finM_ok {A : Type} {K : ℕ} (f : Fin K → Except Err A) (g : Fin K → A) (h : ∀ k, f k = .ok (g k)) :
    finM f = .ok g := by
  induction K with
  | zero =>
    simp only [finM]
    congr 1
    funext k; exact k.elim0
  | succ K ih =>
    simp only [finM]
    rw [h 0, ih (fun k => f k.succ) (fun k => g k.succ) fun k => h k.succ]
    show Except.ok _ = _
    congr 1
    funext k
    refine Fin.cases rfl (fun _ => rfl) k

theorem finM_ok_iff {A : Type} {K : ℕ} (f : Fin K → Except Err A) (g : Fin K → A) :
    finM f = .ok g ↔ ∀ k, f k = .ok (g k) := by
  refine ⟨?_, finM_ok f g⟩
  induction K with
  | zero => intro _ k; exact k.elim0
  | succ K ih =>
    intro h
    simp only [finM] at h
    rcases h0 : f 0 with e | a
    · rw [h0] at h; cases h
    · rcases h1 : finM (fun k => f k.succ) with e | g'
      · rw [h0, h1] at h; cases h
      · rw [h0, h1] at h
        cases h
        have := ih _ _ h1
        intro k
        refine Fin.cases ?_ (fun k => ?_) k
        · simpa using h0
        · simpa using this k

theorem finM_error {A : Type} {K : ℕ} (f : Fin K → Except Err A) (e : Err) (h : finM f = .error e) :
    ∃ k, f k = .error e ∧ ∀ j < k, ∃ a, f j = .ok a := by
  induction K with
  | zero => simp [finM] at h
  | succ K ih =>
    simp only [finM] at h
    rcases h0 : f 0 with e' | a
    · rw [h0] at h; cases h
      exact ⟨0, h0, fun j hj => absurd hj (Fin.not_lt_zero j)⟩
    · rcases h1 : finM (fun k => f k.succ) with e' | g'
      · rw [h0, h1] at h
        cases h
        obtain ⟨k, hk, hlt⟩ := ih _ h1
        refine ⟨k.succ, hk, fun j => Fin.cases (fun _ => ⟨a, h0⟩) (fun j hj => hlt j (Fin.succ_lt_succ_iff.mp hj)) j⟩
      · rw [h0, h1] at h; cases h

theorem mapM_ok_of {A B : Type} (f : A → Except Err B) (g : A → B) (l : List A) (h : ∀ a ∈ l, f a = .ok (g a)) :
    l.mapM f = .ok (l.map g) := by
  induction l with
  | nil => rfl
  | cons a l ih =>
    rw [List.mapM_cons, h a (by simp), ih fun b hb => h b (by simp [hb])]
    rfl

theorem mapM_ok_iff_forall₂ {A B : Type} (f : A → Except Err B) (l : List A) (l' : List B) :
    l.mapM f = .ok l' ↔ List.Forall₂ (fun a b => f a = .ok b) l l' := by
  induction l generalizing l' with
  | nil =>
    simp only [List.mapM_nil, List.forall₂_nil_left_iff]
    constructor
    · intro h; cases h; rfl
    · rintro rfl; rfl
  | cons a l ih =>
    rw [List.mapM_cons]
    rcases h0 : f a with e | b
    · constructor
      · intro h; cases h
      · intro h; cases h with | cons h1 _ => rw [h0] at h1; cases h1
    · rcases h1 : l.mapM f with e | bs
      · constructor
        · intro h; cases h
        · intro h
          cases h with
          | cons _ h2 => rw [← ih] at h2; rw [h1] at h2; cases h2
      · constructor
        · intro h; cases h
          exact .cons h0 ((ih bs).mp h1)
        · intro h
          cases h with
          | cons h2 h3 =>
            rw [h0] at h2; cases h2
            rw [← ih] at h3
            rw [h1] at h3; cases h3
            rfl

theorem mapM_error {A B : Type} (f : A → Except Err B) (l : List A) (e : Err) (h : l.mapM f = .error e) :
    ∃ a ∈ l, f a = .error e := by
  induction l with
  | nil => cases h
  | cons a l ih =>
    rw [List.mapM_cons] at h
    rcases h0 : f a with e' | b
    · rw [h0] at h; cases h
      exact ⟨a, by simp, h0⟩
    · rw [h0] at h
      rcases h1 : l.mapM f with e' | bs
      · rw [h1] at h; cases h
        obtain ⟨x, hx, hfx⟩ := ih h1
        exact ⟨x, by simp [hx], hfx⟩
      · rw [h1] at h; cases h

/-! ### precision factors -/

theorem precFactor_isChol {S : Mat n} (h : S.PosDef) : IsChol (precFactor S) S⁻¹ := by
  unfold precFactor
  have : ∃ L, IsChol L S⁻¹ := exists_chol h.inv
  rw [dif_pos this]
  exact this.choose_spec

theorem precFactor_eq {S L : Mat n} (h : IsChol L S⁻¹) : precFactor S = L := by
  unfold precFactor
  have : ∃ L, IsChol L S⁻¹ := ⟨L, h⟩
  rw [dif_pos this]
  exact this.choose_spec.unique h

theorem posDef_symm {S : Mat n} (h : S.PosDef) : Sᵀ = S := by
  have := h.isHermitian
  rwa [Matrix.IsHermitian, Matrix.conjTranspose_eq_transpose_of_trivial] at this

theorem chol?_posDef {S : Mat n} (h : S.PosDef) : ∃ L, IsChol L S ∧ chol? S = .ok L := by
  obtain ⟨L, hL⟩ := exists_chol h
  refine ⟨L, hL, ?_⟩
  rw [chol?_ok_iff, symLower_of_symm (posDef_symm h)]
  exact hL

theorem chol?_inv {S : Mat n} (h : S.PosDef) : chol? S⁻¹ = .ok (precFactor S) := by
  rw [chol?_ok_iff, symLower_of_symm (posDef_symm h.inv)]
  exact precFactor_isChol h

theorem choleskyPrecision_panel {P : Panel τ n K} (hP : P.Ok) (k : Fin K) :
    choleskyPrecision (P.sigmas k) = .ok ((List.range P.len).map fun t => (P.time t, precFactor (P.cov t k))) := by
  unfold choleskyPrecision Panel.sigmas
  rw [mapM_ok_of _ (fun p => (p.1, precFactor p.2))]
  · rw [List.map_map]; rfl
  · intro p hp
    simp only [List.mem_map, List.mem_range] at hp
    obtain ⟨t, ht, rfl⟩ := hp
    have h := hP.posDef t ht k
    simp only [inv?_of_ne h.det_pos.ne']
    show (do let L ← chol? (P.cov t k)⁻¹; pure (P.time t, L)) = _
    rw [chol?_inv h]
    rfl

/-- the row of the frames at position `t` -/
noncomputable def Panel.row (P : Panel τ n K) (t : ℕ) : Row τ n K where
  time := P.time t
  L k := precFactor (P.cov t k)
  nu k := (precFactor (P.cov t k))ᵀ *ᵥ P.mean t k

/-- the object the constructor builds -/
noncomputable def Panel.comb (P : Panel τ n K) (returns : Dict τ (Vec n)) : Comb τ n K where
  rows := (List.range P.len).map P.row
  returns := returns

theorem lookup_map_range {A : Type} {time : ℕ → τ} {N : ℕ} (h : ∀ s t, s < t → t < N → time s < time t)
    (f : ℕ → A) (t : ℕ) (ht : t < N) : ((List.range N).map fun s => (time s, f s)).lookup (time t) = some (f t) := by
  have key : ∀ (l : List ℕ), t ∈ l → (∀ s ∈ l, s < N) → (l.map fun s => (time s, f s)).lookup (time t) = some (f t) := by
    intro l
    induction l with
    | nil => simp
    | cons a l ih =>
      intro hm hl
      rw [List.map_cons, List.lookup_cons]
      by_cases hat : t = a
      · subst hat; simp
      · have hne : time t ≠ time a := by
          rcases lt_or_gt_of_ne hat with hlt | hgt
          · exact (h t a hlt (hl a (by simp))).ne
          · exact (h a t hgt ht).ne'
        have : (time t == time a) = false := by simpa using hne
        rw [this]
        exact ih (by simpa [hat] using hm) fun s hs => hl s (by simp [hs])
  exact key _ (List.mem_range.mpr ht) fun s hs => List.mem_range.mp hs

theorem keys_panel (P : Panel τ n K) {A : Type} (f : ℕ → A) :
    Dict.keys ((List.range P.len).map fun t => (P.time t, f t)) = (List.range P.len).map P.time := by
  simp [Dict.keys, Function.comp_def]

theorem frameIndex_same {Ls : Fin K → Dict τ (Mat n)} {idx : List τ} (hK : 0 < K)
    (h : ∀ k, (Ls k).keys = idx) : frameIndex Ls = idx := by
  unfold frameIndex
  have key : ∀ l : List (Fin K), l.foldl (fun idx k => idx ++ (Ls k).keys.filter fun t => t ∉ idx) idx = idx := by
    intro l
    induction l with
    | nil => rfl
    | cons k l ih =>
      rw [List.foldl_cons]
      have : ((Ls k).keys.filter fun t => t ∉ idx) = [] := by
        rw [List.filter_eq_nil_iff]
        intro t ht
        rw [h k] at ht
        simp [ht]
      rw [this, List.append_nil]
      exact ih
  obtain ⟨K, rfl⟩ : ∃ K', K = K' + 1 := ⟨K - 1, by omega⟩
  rw [List.finRange_succ, List.foldl_cons]
  have : ([] ++ (Ls 0).keys.filter fun t => t ∉ ([] : List τ)) = idx := by
    simp [h 0]
  rw [this]
  exact key _

theorem fromSigmas_panel {P : Panel τ n K} (hP : P.Ok) (hK : 0 < K) (returns : Dict τ (Vec n)) :
    fromSigmas P.sigmas returns (some fun k => some (P.means k)) = .ok (P.comb returns) := by
  unfold fromSigmas
  have hm : checkMeans P.sigmas (some fun k => some (P.means k)) = .ok P.means := by
    unfold checkMeans
    apply finM_ok
    intro k
    have h1 : Dict.keys (P.sigmas k) = (List.range P.len).map P.time := keys_panel P _
    have h2 : Dict.keys (P.means k) = (List.range P.len).map P.time := keys_panel P _
    simp only [h1, h2]
    rw [if_pos ⟨fun _ h => h, fun _ h => h⟩]
  rw [hm]
  show (do let Ls ← finM fun k => choleskyPrecision (P.sigmas k); let rows ← (frameIndex Ls).mapM (frameRow Ls P.means)
           pure ({ rows := rows, returns := returns } : Comb τ n K)) = _
  rw [finM_ok _ _ (choleskyPrecision_panel hP)]
  show (do let rows ← (frameIndex _).mapM (frameRow _ P.means)
           pure ({ rows := rows, returns := returns } : Comb τ n K)) = _
  rw [frameIndex_same hK fun k => keys_panel P _]
  rw [List.mapM_map, mapM_ok_of _ P.row]
  · rfl
  · intro t ht
    have ht' := List.mem_range.mp ht
    simp only [Function.comp]
    unfold frameRow
    rw [finM_ok _ (fun k => (precFactor (P.cov t k), (precFactor (P.cov t k))ᵀ *ᵥ P.mean t k))]
    · rfl
    · intro k
      unfold frameCell
      rw [lookup_map_range hP.time_lt _ t ht']
      simp only [Panel.means]
      rw [lookup_map_range hP.time_lt (fun t => P.mean t k) t ht']

/-- the panel with zero means -/
def Panel.zeroMean (P : Panel τ n K) : Panel τ n K := { P with mean := fun _ _ => 0 }

theorem fromSigmas_panel_none {P : Panel τ n K} (hP : P.Ok) (hK : 0 < K) (returns : Dict τ (Vec n)) :
    fromSigmas P.sigmas returns none = .ok (P.zeroMean.comb returns) := by
  have hP' : P.zeroMean.Ok := ⟨hP.time_lt, hP.posDef⟩
  have h := fromSigmas_panel hP' hK returns
  have h1 : fromSigmas P.sigmas returns none
      = fromSigmas P.zeroMean.sigmas returns (some fun k => some (P.zeroMean.means k)) := by
    unfold fromSigmas
    have e1 : checkMeans P.sigmas (none : Option (Fin K → Option (Dict τ (Vec n)))) = .ok P.zeroMean.means := by
      unfold checkMeans
      show Except.ok _ = Except.ok _
      congr 1
      funext k
      simp [Panel.sigmas, Panel.means, Panel.zeroMean]
    have e2 : checkMeans P.zeroMean.sigmas (some fun k => some (P.zeroMean.means k)) = .ok P.zeroMean.means := by
      unfold checkMeans
      apply finM_ok
      intro k
      have h1 : Dict.keys (P.zeroMean.sigmas k) = (List.range P.len).map P.time := keys_panel P _
      have h2 : Dict.keys (P.zeroMean.means k) = (List.range P.len).map P.time := keys_panel P _
      simp only [h1, h2]
      rw [if_pos ⟨fun _ h => h, fun _ h => h⟩]
    rw [e1, e2]
    rfl
  rw [h1, h]

end CovPred
