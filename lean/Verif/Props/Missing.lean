import Verif.Props.FromEwmas

/-
Property C70: missing returns in the windows of `solve` (combination.py:214-254).
-/
set_option linter.unusedSectionVars false
namespace CovPred
open XR

variable {τ : Type} [LinearOrder τ] {n K : ℕ} {L : Type} [DecidableEq L]

theorem mapM_congr_except {A B : Type} {f g : A → Except Err B} {l : List A} (h : ∀ a ∈ l, f a = g a) :
    l.mapM f = l.mapM g := by
  induction l with
  | nil => rfl
  | cons a l ih =>
    rw [List.mapM_cons, List.mapM_cons, h a List.mem_cons_self, ih fun b hb => h b (List.mem_cons_of_mem _ hb)]

/-- the times of the window that ends at position `t` -/
theorem window_times {P : Panel τ n K} (hP : P.Ok) (W p q : ℕ) (hp : 0 < p) (hpq : p + q ≤ P.len) {A : Type} (g : ℕ → A)
    {t : ℕ} (h1 : p + W - 1 ≤ t) (h2 : t < p + q) (hW : 0 < W) (missing : List τ) :
    (∃ u ∈ labelSlice (((List.range' p q).map fun s => (P.time s, g s)).map fun r : τ × A => (r.1, r.1))
      (P.time (t + 1 - W)) (P.time t), u ∈ missing) ↔ ∃ s, t - W < s ∧ s ≤ t ∧ P.time s ∈ missing := by
  rw [List.map_map]
  have := labelSlice_panel hP p q (t + 1 - W) t hpq (by omega) (by omega) h2 P.time
  rw [show ((fun r : τ × A => (r.1, r.1)) ∘ fun s => (P.time s, g s)) = fun s => (P.time s, P.time s) from rfl, this]
  constructor
  · rintro ⟨u, hu, hm⟩
    obtain ⟨s, hs, rfl⟩ := List.mem_map.mp hu
    simp only [List.mem_range'_1] at hs
    exact ⟨s, by omega, by omega, hm⟩
  · rintro ⟨s, hs1, hs2, hm⟩
    exact ⟨_, List.mem_map.mpr ⟨s, by simp only [List.mem_range'_1]; omega, rfl⟩, hm⟩

theorem pCholsNan_clean {P : Panel τ n K} (hP : P.Ok) (W p q : ℕ) (hW : 0 < W) (hp : 0 < p) (hpq : p + q ≤ P.len)
    (missing : List τ) (g : ℕ → Mat K)
    (h : ∀ t, p + W - 1 ≤ t → t < p + q → ∀ s, t - W < s → s ≤ t → P.time s ∉ missing) :
    pCholsNan missing W ((List.range' p q).map P.time) ((List.range' p q).map fun s => (P.time s, g s))
      = pChols W ((List.range' p q).map P.time) ((List.range' p q).map fun s => (P.time s, g s)) := by
  unfold pCholsNan pChols windowEnds
  rw [zip_range' p q W hW, List.mapM_map, List.mapM_map]
  apply mapM_congr_except
  intro t ht
  simp only [List.mem_range'_1] at ht
  simp only [Function.comp]
  rw [if_neg]
  rw [window_times hP W p q hp hpq g (by omega) (by omega) hW]
  rintro ⟨s, hs1, hs2, hm⟩
  exact h t (by omega) (by omega) s hs1 hs2 hm

theorem pCholsNan_missing {P : Panel τ n K} (hP : P.Ok) (W p q : ℕ) (hW : 0 < W) (hp : 0 < p) (hpq : p + q ≤ P.len)
    (missing : List τ) (g : ℕ → Mat K)
    (h : ∃ t, p + W - 1 ≤ t ∧ t < p + q ∧ ∃ s, t - W < s ∧ s ≤ t ∧ P.time s ∈ missing) :
    pCholsNan missing W ((List.range' p q).map P.time) ((List.range' p q).map fun s => (P.time s, g s))
      = .error .linAlgError := by
  obtain ⟨t, h1, h2, hmiss⟩ := h
  unfold pCholsNan windowEnds
  rw [zip_range' p q W hW, List.mapM_map]
  rcases hres : (List.range' (p + W - 1) (q + 1 - W)).mapM _ with e | l
  · obtain ⟨s, hs, hse⟩ := mapM_error _ _ _ hres
    simp only [Function.comp] at hse
    split at hse
    · cases hse; rfl
    · rcases chol?_cases (labelSlice ((List.range' p q).map fun s => (P.time s, g s)) (P.time (s + 1 - W)) (P.time s)).sum
        with hc | ⟨L, hc⟩
      · rw [hc] at hse; cases hse; rfl
      · rw [hc] at hse; cases hse
  · exfalso
    rw [mapM_ok_iff_forall₂] at hres
    obtain ⟨r, _, hr⟩ := forall₂_mem_left hres (show t ∈ List.range' (p + W - 1) (q + 1 - W) by
      simp only [List.mem_range'_1]; omega)
    simp only [Function.comp] at hr
    rw [if_pos ((window_times hP W p q hp hpq g h1 h2 hW missing).mpr hmiss)] at hr
    cases hr

/-- The preparation when the positions `p, ..., p + q - 1` are used. -/
theorem solvePrepNan_panel {P : Panel τ n K} {returns : Dict τ (Vec n)} {c : Comb τ n K} (h : P.Gives returns c)
    (missing : List τ) (window : Option ℕ) (times : Option (List τ)) (W p q : ℕ)
    (hWdef : W = effWindow window (P.len - 1)) (hW : 0 < W) (hp : 0 < p) (hpq : p + q ≤ P.len)
    (ht : solveTimes ((List.range' 1 (P.len - 1)).map P.time) W times = .ok ((List.range' p q).map P.time)) :
    ((∀ t, p + W - 1 ≤ t → t < p + q → ∀ s, t - W < s → s ≤ t → P.time s ∉ missing) →
      solvePrepNan c missing window times = solvePrep c window times) ∧
    ((∃ t, p + W - 1 ≤ t ∧ t < p + q ∧ ∃ s, t - W < s ∧ s ≤ t ∧ P.time s ∈ missing) →
      solvePrepNan c missing window times = .error .linAlgError) := by
  rw [h.eq]
  have hlen : (shiftRows ((List.range P.len).map P.row)).length = P.len - 1 := by
    rw [shiftRows_panel]; simp
  have hobs : ((List.range' 1 (P.len - 1)).map P.obs).map Obs.time = (List.range' 1 (P.len - 1)).map P.time := by
    rw [List.map_map]; rfl
  constructor
  · intro hc
    unfold solvePrepNan solvePrep Panel.comb
    simp only [hlen, cappedWindow_eq, ← hWdef, obs_panel h.covered, ok_bind, hobs, ht, prodBs_panel h.ok p q hp hpq, if_neg hW.ne']
    rw [pCholsNan_clean h.ok W p q hW hp hpq missing _ hc]
  · intro hc
    unfold solvePrepNan Panel.comb
    simp only [hlen, cappedWindow_eq, ← hWdef, obs_panel h.covered, ok_bind, hobs, ht, prodBs_panel h.ok p q hp hpq, if_neg hW.ne']
    rw [pCholsNan_missing h.ok W p q hW hp hpq missing _ hc]
    rfl

/-- the positions a request works on -/
theorem request_positions {P : Panel τ n K} (hP : P.Ok) (hlen : 2 ≤ P.len) (window : Option ℕ) {times : Option (List τ)}
    {a b : ℕ} (hreq : P.Request (effWindow window (P.len - 1)) times a b) :
    ∃ p q, 0 < p ∧ p + q ≤ P.len ∧ a = p + effWindow window (P.len - 1) - 1 ∧ b = p + q ∧
      solveTimes ((List.range' 1 (P.len - 1)).map P.time) (effWindow window (P.len - 1)) times
        = .ok ((List.range' p q).map P.time) := by
  have hW := effWindow_pos window (N := P.len - 1) (by omega)
  have hWle := effWindow_le window (P.len - 1)
  cases hreq with
  | all => exact ⟨1, P.len - 1, by omega, by omega, by omega, by omega, rfl⟩
  | some z m hz hm hzm =>
    have ht := solveTimes_some hP _ z m hW hWle hz hm hzm
    unfold firstResult
    by_cases hWz : effWindow window (P.len - 1) ≤ z
    · rw [if_pos hWz] at ht ⊢
      exact ⟨z + 1 - effWindow window (P.len - 1), m + effWindow window (P.len - 1) - 1, by omega, by omega, by omega,
        by omega, ht⟩
    · rw [if_neg hWz] at ht ⊢
      exact ⟨z, m, hz, hzm, rfl, rfl, ht⟩

/-- **C70.** A missing return in the window of one of the requested positions aborts the whole call with `LinAlgError`
before the first result. -/
theorem C70_missing_aborts {P : Panel τ n K} {returns : Dict τ (Vec n)} {c : Comb τ n K} (h : P.Gives returns c)
    (hlen : 2 ≤ P.len) (missing : List τ) (solver : Solver n K) (window : Option ℕ) (times : Option (List τ)) (a b : ℕ)
    (hreq : P.Request (effWindow window (P.len - 1)) times a b)
    (hmiss : ∃ t, a ≤ t ∧ t < b ∧ ∃ s, t - effWindow window (P.len - 1) < s ∧ s ≤ t ∧ P.time s ∈ missing) :
    c.solveNan missing solver window times = ⟨[], some .linAlgError⟩ := by
  obtain ⟨p, q, hp, hpq, rfl, rfl, ht⟩ := request_positions h.ok hlen window hreq
  have := (solvePrepNan_panel h missing window times _ p q rfl (effWindow_pos window (by omega)) hp hpq ht).2 hmiss
  unfold Comb.solveNan
  rw [this]

/-- **C70.** Missing returns outside the windows of the requested positions have no effect. -/
theorem C70_missing_elsewhere {P : Panel τ n K} {returns : Dict τ (Vec n)} {c : Comb τ n K} (h : P.Gives returns c)
    (hlen : 2 ≤ P.len) (missing : List τ) (solver : Solver n K) (window : Option ℕ) (times : Option (List τ)) (a b : ℕ)
    (hreq : P.Request (effWindow window (P.len - 1)) times a b)
    (hmiss : ∀ t, a ≤ t → t < b → ∀ s, t - effWindow window (P.len - 1) < s → s ≤ t → P.time s ∉ missing) :
    c.solveNan missing solver window times = c.solve solver window times := by
  obtain ⟨p, q, hp, hpq, rfl, rfl, ht⟩ := request_positions h.ok hlen window hreq
  have := (solvePrepNan_panel h missing window times _ p q rfl (effWindow_pos window (by omega)) hp hpq ht).1 hmiss
  unfold Comb.solveNan Comb.solve
  rw [this]
  cases solvePrep c window times <;> rfl

/-- **C70.** Without missing returns nothing changes, for any object and any arguments. -/
theorem C70_none_missing (c : Comb τ n K) (solver : Solver n K) (window : Option ℕ) (times : Option (List τ)) :
    c.solveNan [] solver window times = c.solve solver window times := by
  have hp : ∀ w ts (prods : List (τ × Mat K)), pCholsNan [] w ts prods = pChols w ts prods := by
    intro w ts prods
    unfold pCholsNan pChols
    simp
  have : solvePrepNan c [] window times = solvePrep c window times := by
    unfold solvePrepNan solvePrep
    simp only [hp]
  unfold Comb.solveNan Comb.solve
  rw [this]
  cases solvePrep c window times <;> rfl

open Classical in
/-- **C70.** The missing times of the object `from_ewmas` returns are those of the rows with a missing entry. -/
theorem C70_from_ewmas_missing (hn : 0 < n) (label : XR × XR → L) {f : Frame τ (Fin n) XR} {T : ℕ} {tm : ℕ → τ}
    (hd : DistinctTimes T tm) {x : ℕ → Fin n → ℝ} (hf : Represents f true T tm x) {pairs : List (ℝ × ℝ)}
    (hp : PosPairs pairs) (mv mc : Int) (clipAt : Option ℝ) (mean : Bool) {c : EwmaComb L τ n}
    (h : callEwmas label f pairs mv mc clipAt mean = .ok c) (t : τ) :
    t ∈ c.missing ↔ ∃ row, (t, row) ∈ f ∧ ∃ i, row i = nan := by
  rcases callEwmas_cases hn label hd hf hp mv mc clipAt mean with ⟨_, he⟩ | ⟨_, he⟩
  · rw [h] at he; cases he
  · rw [he] at h
    have hm : c.missing = (f.filter fun p => ∃ i, p.2 i = XR.nan).map Prod.fst := by
      unfold ewmaTail at h
      simp only [bind, Except.bind, pure, Except.pure] at h
      split at h
      · cases h
      · split at h
        · cases h
        · cases h; rfl
    rw [hm]
    simp only [List.mem_map, List.mem_filter, decide_eq_true_eq]
    constructor
    · rintro ⟨⟨t', row⟩, ⟨h1, h2⟩, rfl⟩
      exact ⟨row, h1, h2⟩
    · rintro ⟨row, h1, h2⟩
      exact ⟨(t, row), ⟨h1, h2⟩, rfl⟩

/-- A missing return at position 2 of the demo aborts, at position 0 it has no effect. -/
example (solver : Solver 2 2) :
    (Demo.panel.comb Demo.returns).solveNan [2] solver (some 1) none = ⟨[], some .linAlgError⟩ ∧
    (Demo.panel.comb Demo.returns).solveNan [0] solver (some 1) none
      = (Demo.panel.comb Demo.returns).solve solver (some 1) none :=
  ⟨C70_missing_aborts Demo.panel_gives (by show 2 ≤ 4; norm_num) [2] solver (some 1) none _ _ .all
    ⟨2, by show 1 ≤ 2; norm_num, by show 2 < 4; norm_num, 2, by show 2 - 1 < 2; norm_num, le_rfl, by simp [Demo.panel]⟩,
   C70_missing_elsewhere Demo.panel_gives (by show 2 ≤ 4; norm_num) [0] solver (some 1) none _ _ .all
    (by
      intro t ht _ s hs _ hm
      have h1 : 1 ≤ t := ht
      have h2 : t - 1 < s := hs
      simp [Demo.panel] at hm
      omega)⟩

end CovPred
