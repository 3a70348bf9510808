import Verif.Model.RhoBands
import Verif.Spec.RhoBands
import Verif.Lemmas.FactorModel3

/-
The tables of `rangeBand` and `deviationBand`, row by row.
-/
set_option linter.unusedSectionVars false
namespace CovPred

variable {τ : Type} [LinearOrder τ] {n : ℕ}

theorem listMax_spec {l : List ℝ} (h : l ≠ []) : IsGreatest {v | v ∈ l} (listMax l) := by
  have key : ∀ (xs : List ℝ) (x : ℝ), xs.foldl max x ∈ x :: xs ∧ ∀ y ∈ x :: xs, y ≤ xs.foldl max x := by
    intro xs
    induction xs with
    | nil => intro x; simp
    | cons a xs ih =>
      intro x
      rw [List.foldl_cons]
      obtain ⟨h1, h2⟩ := ih (max x a)
      refine ⟨?_, fun y hy => ?_⟩
      · rcases List.mem_cons.1 h1 with h | h
        · rcases max_choice x a with h' | h' <;> (rw [h'] at h; rw [h', h]; simp)
        · exact List.mem_cons_of_mem _ (List.mem_cons_of_mem _ h)
      · rcases List.mem_cons.1 hy with rfl | hy
        · exact (le_max_left _ a).trans (h2 _ List.mem_cons_self)
        · rcases List.mem_cons.1 hy with rfl | hy
          · exact (le_max_right x _).trans (h2 _ List.mem_cons_self)
          · exact h2 _ (List.mem_cons_of_mem _ hy)
  cases l with
  | nil => exact absurd rfl h
  | cons a l => exact ⟨(key l a).1, fun y hy => (key l a).2 y hy⟩

theorem listMin_spec {l : List ℝ} (h : l ≠ []) : IsLeast {v | v ∈ l} (listMin l) := by
  have key : ∀ (xs : List ℝ) (x : ℝ), xs.foldl min x ∈ x :: xs ∧ ∀ y ∈ x :: xs, xs.foldl min x ≤ y := by
    intro xs
    induction xs with
    | nil => intro x; simp
    | cons a xs ih =>
      intro x
      rw [List.foldl_cons]
      obtain ⟨h1, h2⟩ := ih (min x a)
      refine ⟨?_, fun y hy => ?_⟩
      · rcases List.mem_cons.1 h1 with h | h
        · rcases min_choice x a with h' | h' <;> (rw [h'] at h; rw [h', h]; simp)
        · exact List.mem_cons_of_mem _ (List.mem_cons_of_mem _ h)
      · rcases List.mem_cons.1 hy with rfl | hy
        · exact (h2 _ List.mem_cons_self).trans (min_le_left _ a)
        · rcases List.mem_cons.1 hy with rfl | hy
          · exact (h2 _ List.mem_cons_self).trans (min_le_right x _)
          · exact h2 _ (List.mem_cons_of_mem _ hy)
  cases l with
  | nil => exact absurd rfl h
  | cons a l => exact ⟨(key l a).1, fun y hy => (key l a).2 y hy⟩

theorem frameOf_rows (T : ℕ) (tm : ℕ → τ) (x : ℕ → Vec n) (v : ℕ → Vec n) :
    frameOf (rowDict T tm x) v = rowDict T tm v := by
  unfold frameOf rowDict
  apply List.ext_getElem
  · simp
  · intro j h1 h2
    simp

theorem ewmFrame_rows {h : ℝ} (hh : 0 < h) (T : ℕ) (tm : ℕ → τ) (x : ℕ → Vec n) :
    ewmFrame (rowDict T tm x) h = .ok (rowDict T tm fun t i => ewmForecast x h t i) := by
  unfold ewmFrame
  rw [if_neg (not_le.mpr hh)]
  congr 1
  unfold rowDict
  apply List.ext_getElem
  · simp
  · intro j h1 h2
    simp only [List.length_map, List.length_range] at h2
    simp only [List.getElem_map, List.getElem_zip, List.getElem_range, List.map_map]
    congr 1
    funext i
    have e : (List.range T).map ((fun r : τ × Vec n => r.2 i) ∘ fun s => (tm s, x s))
        = (List.range T).map fun u => x u i := rfl
    rw [e, pandasEwm_spec, List.getElem?_map, List.getElem?_range h2]
    rfl

theorem rowDict_ext {A : Type} {T : ℕ} {tm : ℕ → τ} {v w : ℕ → A} : rowDict T tm v = rowDict T tm w ↔ ∀ t < T, v t = w t := by
  unfold rowDict
  constructor
  · intro h t ht
    have := congrArg (fun l => l[t]?) h
    simp only [List.getElem?_map, List.getElem?_range ht, Option.map_some, Option.some.injEq, Prod.mk.injEq, true_and] at this
    exact this
  · intro h
    apply List.map_congr_left
    intro s hs
    rw [h s (List.mem_range.mp hs)]

theorem stackEntry_rows {H : Type} (T : ℕ) (tm : ℕ → τ) (F : H → ℕ → Vec n) (hs : List H) {k : ℕ} (hk : k < T) (i : Fin n) :
    stackEntry (hs.map fun h => rowDict T tm (F h)) k i = hs.map fun h => F h k i := by
  unfold stackEntry rowDict
  rw [List.map_map]
  apply List.map_congr_left
  intro h _
  simp [List.getElem?_range hk]

theorem mapM_map_ok {A B : Type} (f : A → Except Err B) (g : A → B) : ∀ (l : List A), (∀ a ∈ l, f a = .ok (g a)) →
    l.mapM f = .ok (l.map g) := by
  intro l
  induction l with
  | nil => intro _; rfl
  | cons a l ih =>
    intro h
    rw [List.mapM_cons, h a List.mem_cons_self, ih fun b hb => h b (List.mem_cons_of_mem _ hb)]
    rfl

theorem rangeBand_rows (T : ℕ) (tm : ℕ → τ) (x : ℕ → Vec n) {hs : List ℝ} (hne : hs ≠ []) (hpos : ∀ h ∈ hs, 0 < h) :
    rangeBand (rowDict T tm x) hs = .ok
      (rowDict T tm fun t i => (hs.map fun h => ewmForecast x h t i).sum / (hs.length : ℝ),
       rowDict T tm fun t i => (listMax (hs.map fun h => ewmForecast x h t i) - listMin (hs.map fun h => ewmForecast x h t i)) / 2) := by
  unfold rangeBand
  rw [mapM_map_ok _ (fun h => rowDict T tm fun t i => ewmForecast x h t i) hs fun h hh => ewmFrame_rows (hpos h hh) T tm x]
  show (if _ then _ else _) = _
  rw [if_neg (by simpa using hne), frameOf_rows, frameOf_rows]
  congr 2
  · rw [rowDict_ext]
    intro t ht
    funext i
    rw [stackEntry_rows T tm (fun h t i => ewmForecast x h t i) hs ht i, List.length_map]
  · rw [rowDict_ext]
    intro t ht
    funext i
    rw [stackEntry_rows T tm (fun h t i => ewmForecast x h t i) hs ht i]

/-- one row of `tune_returns` -/
noncomputable def tunedRow (lower upper : ℝ) (v : Vec n) : Vec n := clipSeries v (quantileAt v lower) (quantileAt v upper)

theorem tunedEwm_rows {lower upper h : ℝ} (hl : 0 ≤ lower ∧ lower ≤ 1) (hu : 0 ≤ upper ∧ upper ≤ 1) (hh : 0 < h) (T : ℕ)
    (tm : ℕ → τ) (x : ℕ → Vec n) :
    tunedEwm (rowDict T tm x) lower upper h = .ok (rowDict T tm fun t => tunedRow lower upper (ewmForecast x h t)) := by
  unfold tunedEwm
  rw [ewmFrame_rows hh]
  show tuneReturns _ lower upper = _
  unfold tuneReturns
  rw [mapM_map_ok (tuneRow lower upper) (fun p => (p.1, tunedRow lower upper p.2))]
  · unfold rowDict
    rw [List.map_map]; rfl
  · intro p _
    unfold tuneRow quantile
    rw [if_pos hl, if_pos hu]; rfl

theorem deviationBand_rows {lower upper base : ℝ} (hl : 0 ≤ lower ∧ lower ≤ 1) (hu : 0 ≤ upper ∧ upper ≤ 1) (hb : 0 < base)
    (T : ℕ) (tm : ℕ → τ) (x : ℕ → Vec n) {hs : List ℝ} (hne : hs ≠ []) (hpos : ∀ h ∈ hs, 0 < h) :
    deviationBand (rowDict T tm x) lower upper hs base = .ok
      (rowDict T tm fun t => tunedRow lower upper (ewmForecast x base t),
       rowDict T tm fun t i => listMax (hs.map fun h =>
        |tunedRow lower upper (ewmForecast x h t) i - tunedRow lower upper (ewmForecast x base t) i|)) := by
  unfold deviationBand
  rw [mapM_map_ok _ (fun h => rowDict T tm fun t => tunedRow lower upper (ewmForecast x h t)) hs
    fun h hh => tunedEwm_rows hl hu (hpos h hh) T tm x, tunedEwm_rows hl hu hb]
  show (if _ then _ else _) = _
  rw [if_neg (by simpa using hne), frameOf_rows]
  congr 2
  rw [rowDict_ext]
  intro t ht
  funext i
  rw [stackEntry_rows T tm (fun h t => tunedRow lower upper (ewmForecast x h t)) hs ht i, List.map_map]
  congr 1
  apply List.map_congr_left
  intro h _
  simp [rowDict, List.getElem?_range ht]

end CovPred
