import Verif.Spec.RunErrors
import Verif.Lemmas.CmIewma

/-
The exception of a comprehension over `solve(...)`.
-/
namespace CovPred

variable {τ : Type} [LinearOrder τ] {n K : ℕ}

theorem mapM_error_first {A B : Type} (f : A → Except Err B) (e : Err) : ∀ (l : List A) (k : ℕ) (hk : k < l.length),
    (∀ (j : ℕ) (hj : j < k), ∃ b, f (l[j]'(by omega)) = .ok b) → f l[k] = .error e → l.mapM f = .error e := by
  intro l
  induction l with
  | nil => intro k hk; simp at hk
  | cons a l ih =>
    intro k hk h1 h2
    rw [List.mapM_cons]
    cases k with
    | zero =>
      have : f a = .error e := h2
      rw [this]; rfl
    | succ k =>
      obtain ⟨b, hb⟩ := h1 0 (by omega)
      have hb' : f a = .ok b := hb
      rw [hb']
      have := ih k (by simpa using hk) (fun j hj => h1 (j + 1) (by omega)) h2
      change (l.mapM f >>= fun x => pure (b :: x)) = _
      rw [this]; rfl

/-- A run, followed by a comprehension that fails exactly on `None`. -/
theorem run_fails {P : Panel τ n K} {solver : Solver n K} {W : ℕ} {tr : Trace (Result τ n K)}
    (h : P.Run solver W W P.len tr) {B : Type} {g : Option (Result τ n K) → Except Err B}
    (g0 : g none = .error .attributeError) (g1 : ∀ r, ∃ b, g (some r) = .ok b) :
    (tr.err = none ∧ ∃ l, tr.items.mapM g = .ok l) ∨
    ∃ e, P.Fails solver W e ∧ ((tr.items.mapM g = .error e) ∨ ((∃ l, tr.items.mapM g = .ok l) ∧ tr.err = some e)) := by
  rcases h with ⟨hex, rfl⟩ | ⟨hg, m, hitems, hnr, hend⟩
  · right
    exact ⟨.linAlgError, Or.inl ⟨hex, rfl⟩, Or.inr ⟨⟨[], rfl⟩, rfl⟩⟩
  · have hm : m ≤ P.len - W := by rcases hend with ⟨h, _⟩ | ⟨h, _⟩ <;> omega
    have hitem : ∀ t w, P.outcome solver W W t = .weights w → ∃ b, g (P.item solver W W t) = .ok b := by
      intro t w hw
      unfold Panel.item
      rw [hw]
      exact g1 _
    by_cases hsol : ∀ t, W ≤ t → t < W + m → ∃ w, P.outcome solver W W t = .weights w
    · have hl : ∃ l, tr.items.mapM g = .ok l := by
        rcases hc : tr.items.mapM g with e | l
        · obtain ⟨o, ho, he⟩ := mapM_error _ _ _ hc
          rw [hitems] at ho
          obtain ⟨t, ht, rfl⟩ := List.mem_map.mp ho
          rw [List.mem_range'_1] at ht
          obtain ⟨w, hw⟩ := hsol t ht.1 ht.2
          obtain ⟨b, hb⟩ := hitem t w hw
          rw [hb] at he; cases he
        · exact ⟨l, rfl⟩
      rcases hend with ⟨_, herr⟩ | ⟨hlt, e, herr, hout⟩
      · exact Or.inl ⟨herr, hl⟩
      · right
        exact ⟨e, Or.inr ⟨hg, W + m, by omega, by omega, fun s h1 h2 => hsol s h1 h2, Or.inr hout⟩, Or.inr ⟨hl, herr⟩⟩
    · right
      have hex : ∃ t, W ≤ t ∧ t < W + m ∧ ¬ ∃ w, P.outcome solver W W t = .weights w := by
        by_contra hno
        apply hsol
        intro t h1 h2
        by_contra h3
        exact hno ⟨t, h1, h2, h3⟩
      classical
      obtain ⟨h1, h2, h3⟩ := Nat.find_spec hex
      set t := Nat.find hex with htdef
      have hmin : ∀ s, W ≤ s → s < t → ∃ w, P.outcome solver W W s = .weights w := by
        intro s h4 h5
        by_contra h6
        exact Nat.find_min hex h5 ⟨h4, by omega, h6⟩
      have hout : P.outcome solver W W t = .solverError := by
        rcases ho : P.outcome solver W W t with w | _ | e
        · exact absurd ⟨w, ho⟩ h3
        · rfl
        · exact absurd ho (hnr t h1 h2 e)
      refine ⟨.attributeError, Or.inr ⟨hg, t, h1, by omega, hmin, Or.inl ⟨hout, rfl⟩⟩, Or.inl ?_⟩
      rw [hitems]
      refine mapM_error_first g _ _ (t - W) (by simp; omega) ?_ ?_
      · intro j hj
        obtain ⟨w, hw⟩ := hmin (W + j) (by omega) (by omega)
        obtain ⟨b, hb⟩ := hitem _ w hw
        exact ⟨b, by simpa using hb⟩
      · simp only [List.getElem_map, List.getElem_range', one_mul]
        rw [show W + (t - W) = t by omega]
        unfold Panel.item
        rw [hout]
        exact g0

/-- the loop of README.md:134-137 over a run -/
theorem resultDict_fails {P : Panel τ n K} {solver : Solver n K} {W : ℕ} {tr : Trace (Result τ n K)}
    (h : P.Run solver W W P.len tr) {e : Err} (he : resultDict tr = .error e) : P.Fails solver W e := by
  unfold resultDict at he
  rcases run_fails h (g := timeAndCov) rfl (fun r => ⟨_, rfl⟩) with ⟨h1, l, h2⟩ | ⟨e', h1, h2 | ⟨⟨l, h2⟩, h3⟩⟩
  · rw [h1, h2] at he; cases he
  · rw [h2] at he; cases he; exact h1
  · rw [h2, h3] at he; cases he; exact h1

/-- `from_sigmas(...).solve(window)` and the comprehension over it, for experts on the same times -/
theorem solve_window_fails (hK : 0 < K) {P : Panel τ n K} (hm : ∀ t i, P.mean t i = 0)
    (htime : ∀ s t, s < t → t < P.len → P.time s < P.time t) (hsymm : ∀ t < P.len, ∀ k, (P.cov t k).transpose = P.cov t k)
    {returns : Dict τ (Vec n)} (hcov : P.Covered returns) (hlen : 2 ≤ P.len) {window : ℕ} (hw : 0 < window)
    {solver : Solver n K} (hs : solver.Feasible) {W : ℕ} (hWdef : W = min window (P.len - 1)) {e : Err}
    (h : (do let comb ← fromSigmas P.sigmas returns none
             resultDict (comb.solve solver (some window) none)) = .error e) :
    (e = .linAlgError ∧ ∃ t < P.len, ∃ k, ¬ (P.cov t k).PosDef) ∨
    ((∀ t < P.len, ∀ k, (P.cov t k).PosDef) ∧ P.Fails solver W e) := by
  by_cases hpd : ∀ t < P.len, ∀ k, (P.cov t k).PosDef
  · right
    refine ⟨hpd, ?_⟩
    have hP : P.Ok := ⟨htime, hpd⟩
    obtain ⟨c, hc⟩ : ∃ c, fromSigmas P.sigmas returns none = .ok c := ⟨_, fromSigmas_panel_none hP hK returns⟩
    have hG : P.Gives returns c := ⟨hP, hcov, hK, Or.inr ⟨hm, hc⟩⟩
    have hrun := solve_run_none hG (by omega) hs (some window)
    have hW : effWindow (some window) (P.len - 1) = W := by
      unfold effWindow; simp only [if_neg hw.ne']; rw [hWdef]
    rw [hW] at hrun
    rw [hc, ok_bind] at h
    exact resultDict_fails hrun h
  · left
    push Not at hpd
    obtain ⟨t, ht, k, hk⟩ := hpd
    refine ⟨?_, t, ht, k, hk⟩
    rcases hc : fromSigmas P.sigmas returns none with e' | c
    · rw [hc] at h
      have he : e' = e := by cases h; rfl
      subst he
      rcases C38_constructor_error _ _ _ _ hc with ⟨_, _, _, h1, _⟩ | ⟨_, _, _, _, h1, _⟩ | ⟨h1, _⟩ | ⟨_, _, h1, _⟩
      · cases h1
      · cases h1
      · exact h1
      · exact absurd ((C38_usable_iff _ (hsymm t ht k)).mp (h1 k _ (List.mem_map.mpr ⟨t, List.mem_range.mpr ht, rfl⟩))) hk
    · have hus := (C38_constructor_ok _ _ _).mp ⟨c, hc⟩
      exact absurd ((C38_usable_iff _ (hsymm t ht k)).mp (hus.2.1 k _ (List.mem_map.mpr ⟨t, List.mem_range.mpr ht, rfl⟩))) hk

/-- A run whose results are collected in a list, followed by a comprehension that fails exactly on `None`. -/
theorem list_fails {P : Panel τ n K} {solver : Solver n K} {W : ℕ} {tr : Trace (Result τ n K)}
    (h : P.Run solver W W P.len tr) {B : Type} {g : Option (Result τ n K) → Except Err B}
    (g0 : g none = .error .attributeError) (g1 : ∀ r, ∃ b, g (some r) = .ok b) {e : Err}
    (he : tr.err = some e ∨ (tr.err = none ∧ tr.items.mapM g = .error e)) : P.FailsList solver W e := by
  rcases h with ⟨hex, rfl⟩ | ⟨hg, m, hitems, hnr, hend⟩
  · left
    rcases he with he | ⟨he, _⟩
    · cases he; exact ⟨hex, rfl⟩
    · cases he
  · right
    refine ⟨hg, ?_⟩
    rcases hend with ⟨rfl, herr⟩ | ⟨hlt, e', herr, hout⟩
    · rcases he with he | ⟨_, he⟩
      · rw [herr] at he; cases he
      · right
        obtain ⟨o, ho, heo⟩ := mapM_error _ _ _ he
        rw [hitems] at ho
        obtain ⟨t, ht, rfl⟩ := List.mem_map.mp ho
        rw [List.mem_range'_1] at ht
        rcases hw : P.outcome solver W W t with w | _ | e'
        · exfalso
          unfold Panel.item at heo
          rw [hw] at heo
          obtain ⟨b, hb⟩ := g1 (P.predict t w)
          rw [hb] at heo; cases heo
        · refine ⟨?_, ⟨t, ht.1, by omega, hw⟩, fun s h1 h2 => hnr s h1 (by omega)⟩
          unfold Panel.item at heo
          rw [hw, g0] at heo
          cases heo; rfl
        · exact absurd hw (hnr t ht.1 (by omega) e')
    · left
      rcases he with he | ⟨he, _⟩
      · rw [herr] at he
        cases he
        exact ⟨W + m, by omega, by omega, hout, fun s h1 h2 => hnr s h1 h2⟩
      · rw [herr] at he; cases he

/-- the comprehension of factor_model.py:45-47 over a run -/
theorem listDict_fails {P : Panel τ n K} {solver : Solver n K} {W : ℕ} {tr : Trace (Result τ n K)}
    (h : P.Run solver W W P.len tr) {e : Err} (he : listDict tr = .error e) : P.FailsList solver W e := by
  apply list_fails h (g := timeAndCov) rfl (fun r => ⟨_, rfl⟩)
  unfold listDict at he
  rcases hc : tr.err with _ | e'
  · right
    rw [hc] at he
    rcases hm : tr.items.mapM timeAndCov with e' | items
    · simp only [hm] at he
      cases he; exact ⟨rfl, rfl⟩
    · simp only [hm] at he
      cases he
  · rw [hc] at he
    cases he; exact Or.inl rfl

/-- `from_sigmas(...).solve(window)` and the comprehension over the list of its results, for experts on the same times -/
theorem solve_list_fails (hK : 0 < K) {P : Panel τ n K} (hm : ∀ t i, P.mean t i = 0)
    (htime : ∀ s t, s < t → t < P.len → P.time s < P.time t) (hsymm : ∀ t < P.len, ∀ k, (P.cov t k).transpose = P.cov t k)
    {returns : Dict τ (Vec n)} (hcov : P.Covered returns) (hlen : 2 ≤ P.len) {window : ℕ} (hw : 0 < window)
    {solver : Solver n K} (hs : solver.Feasible) {W : ℕ} (hWdef : W = min window (P.len - 1)) {e : Err}
    (h : (do let comb ← fromSigmas P.sigmas returns none
             listDict (comb.solve solver (some window) none)) = .error e) :
    (e = .linAlgError ∧ ∃ t < P.len, ∃ k, ¬ (P.cov t k).PosDef) ∨
    ((∀ t < P.len, ∀ k, (P.cov t k).PosDef) ∧ P.FailsList solver W e) := by
  by_cases hpd : ∀ t < P.len, ∀ k, (P.cov t k).PosDef
  · right
    refine ⟨hpd, ?_⟩
    have hP : P.Ok := ⟨htime, hpd⟩
    obtain ⟨c, hc⟩ : ∃ c, fromSigmas P.sigmas returns none = .ok c := ⟨_, fromSigmas_panel_none hP hK returns⟩
    have hG : P.Gives returns c := ⟨hP, hcov, hK, Or.inr ⟨hm, hc⟩⟩
    have hrun := solve_run_none hG (by omega) hs (some window)
    have hW : effWindow (some window) (P.len - 1) = W := by
      unfold effWindow; simp only [if_neg hw.ne']; rw [hWdef]
    rw [hW] at hrun
    rw [hc, ok_bind] at h
    exact listDict_fails hrun h
  · left
    push Not at hpd
    obtain ⟨t, ht, k, hk⟩ := hpd
    refine ⟨?_, t, ht, k, hk⟩
    rcases hc : fromSigmas P.sigmas returns none with e' | c
    · rw [hc] at h
      have he : e' = e := by cases h; rfl
      subst he
      rcases C38_constructor_error _ _ _ _ hc with ⟨_, _, _, h1, _⟩ | ⟨_, _, _, _, h1, _⟩ | ⟨h1, _⟩ | ⟨_, _, h1, _⟩
      · cases h1
      · cases h1
      · exact h1
      · exact absurd ((C38_usable_iff _ (hsymm t ht k)).mp (h1 k _ (List.mem_map.mpr ⟨t, List.mem_range.mpr ht, rfl⟩))) hk
    · have hus := (C38_constructor_ok _ _ _).mp ⟨c, hc⟩
      exact absurd ((C38_usable_iff _ (hsymm t ht k)).mp (hus.2.1 k _ (List.mem_map.mpr ⟨t, List.mem_range.mpr ht, rfl⟩))) hk

end CovPred
