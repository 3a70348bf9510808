import Verif.Model.MarimoDemo
import Verif.Spec.MarimoDemo
import Verif.Spec.Iewma

/-
Lemmas on prices and returns.
-/
set_option linter.unusedSectionVars false
namespace CovPred

variable {τ : Type} [LinearOrder τ] {m n : ℕ}

/-- the last price before day `t` -/
def lastOpt (p : ℕ → Fin m → Option ℝ) (i : Fin m) : ℕ → Option ℝ
  | 0 => none
  | t + 1 => (p t i).or (lastOpt p i t)

theorem lastOpt_iff (p : ℕ → Fin m → Option ℝ) (i : Fin m) (t : ℕ) (q : ℝ) :
    lastOpt p i (t + 1) = some q ↔ LastPrice p i t q := by
  induction t with
  | zero =>
    rw [lastOpt, lastOpt, Option.or_none]
    constructor
    · intro h; exact ⟨0, le_rfl, h, fun u h1 h2 => by omega⟩
    · rintro ⟨s, hs, h, _⟩
      obtain rfl : s = 0 := by omega
      exact h
  | succ t ih =>
    rw [lastOpt]
    rcases hp : p (t + 1) i with _ | r
    · rw [Option.none_or, ih]
      constructor
      · rintro ⟨s, hs, h1, h2⟩
        refine ⟨s, by omega, h1, fun u h3 h4 => ?_⟩
        by_cases hu : u = t + 1
        · rw [hu, hp]
        · exact h2 u h3 (by omega)
      · rintro ⟨s, hs, h1, h2⟩
        have : s ≠ t + 1 := by rintro rfl; rw [hp] at h1; cases h1
        exact ⟨s, by omega, h1, fun u h3 h4 => h2 u h3 (by omega)⟩
    · rw [Option.some_or]
      constructor
      · intro h; cases h
        exact ⟨t + 1, le_rfl, hp, fun u h1 h2 => by omega⟩
      · rintro ⟨s, hs, h1, h2⟩
        have : s = t + 1 := by
          by_contra hne
          have := h2 (t + 1) (by omega) le_rfl
          rw [hp] at this; cases this
        rw [this, hp] at h1
        exact h1

theorem lastOpt_isSome (p : ℕ → Fin m → Option ℝ) (i : Fin m) (t : ℕ) : (lastOpt p i (t + 1)).isSome ↔ Listed p i t := by
  constructor
  · intro h
    obtain ⟨q, hq⟩ := Option.isSome_iff_exists.mp h
    obtain ⟨s, hs, h1, _⟩ := (lastOpt_iff p i t q).mp hq
    exact ⟨s, hs, by rw [h1]; rfl⟩
  · rintro ⟨s, hs, h⟩
    induction t with
    | zero =>
      obtain rfl : s = 0 := by omega
      rw [lastOpt, lastOpt, Option.or_none]; exact h
    | succ t ih =>
      rw [lastOpt]
      by_cases he : s = t + 1
      · rw [← he]
        obtain ⟨q, hq⟩ := Option.isSome_iff_exists.mp h
        rw [hq]; rfl
      · have := ih (by omega)
        obtain ⟨q, hq⟩ := Option.isSome_iff_exists.mp this
        rw [hq]
        rcases p (t + 1) i with _ | r <;> rfl

theorem lastOpt_pos {T : ℕ} {p : ℕ → Fin m → Option ℝ} (hp : PositivePrices T p) (i : Fin m) {t : ℕ} (ht : t ≤ T) {q : ℝ}
    (h : lastOpt p i t = some q) : 0 < q := by
  cases t with
  | zero => cases h
  | succ t =>
    obtain ⟨s, hs, h1, _⟩ := (lastOpt_iff p i t q).mp h
    exact hp s (by omega) i q h1

/-- a number or `nan` -/
def optXR (o : Option ℝ) : XR := (o.map XR.fin).getD XR.nan

theorem optXR_isNaN (o : Option ℝ) : (optXR o).isNaN = o.isNone := by cases o <;> rfl

/-- the filledPrices prices before day `t` -/
def filledPrices (p : ℕ → Fin m → Option ℝ) (t : ℕ) : Arr (Fin m) XR := Arr.ofFn fun i => optXR (lastOpt p i t)

theorem filledPrices_zero (p : ℕ → Fin m → Option ℝ) : filledPrices p 0 = missingRow := rfl

theorem ffill_spec (tm : ℕ → τ) (p : ℕ → Fin m → Option ℝ) (s k : ℕ) :
    ffillRows (filledPrices p s) ((List.range' s k).map fun t => (tm t, Arr.ofFn fun i => ((p t i).map XR.fin).getD XR.nan))
      = (List.range' s k).map fun t => (tm t, filledPrices p (t + 1)) := by
  induction k generalizing s with
  | zero => rfl
  | succ k ih =>
    rw [List.range'_succ, List.map_cons, List.map_cons, ffillRows]
    have e : (Arr.ofFn fun i => if ((Arr.ofFn fun i => ((p s i).map XR.fin).getD XR.nan : Arr (Fin m) XR) i).isNaN
        then filledPrices p s i else (Arr.ofFn fun i => ((p s i).map XR.fin).getD XR.nan : Arr (Fin m) XR) i) = filledPrices p (s + 1) := by
      apply Arr.ext
      intro i
      simp only [Arr.get_ofFn, filledPrices, lastOpt]
      rcases p s i with _ | q <;> rfl
    rw [e, ih]

theorem change_spec (tm : ℕ → τ) (F : ℕ → Arr (Fin m) XR) (s k : ℕ) :
    changeRows (F s) ((List.range' s k).map fun t => (tm t, F (t + 1)))
      = (List.range' s k).map fun t => (tm t, Arr.ofFn fun i => F (t + 1) i / F t i - XR.fin 1) := by
  induction k generalizing s with
  | zero => rfl
  | succ k ih => rw [List.range'_succ, List.map_cons, List.map_cons, changeRows, ih]

/-- the return of day `t` -/
noncomputable def returnOpt (p : ℕ → Fin m → Option ℝ) (t : ℕ) (i : Fin m) : Option ℝ :=
  match lastOpt p i t, lastOpt p i (t + 1) with
  | some a, some b => some (b / a - 1)
  | _, _ => none

theorem returnOpt_isSome (p : ℕ → Fin m → Option ℝ) (t : ℕ) (i : Fin m) :
    (returnOpt p t i).isSome ↔ (lastOpt p i t).isSome := by
  unfold returnOpt
  rcases ha : lastOpt p i t with _ | a
  · simp
  · rw [lastOpt]; rcases p t i with _ | b <;> simp [ha]

theorem change_entry {T : ℕ} {p : ℕ → Fin m → Option ℝ} (hp : PositivePrices T p) {t : ℕ} (ht : t < T) (i : Fin m) :
    filledPrices p (t + 1) i / filledPrices p t i - XR.fin 1 = optXR (returnOpt p t i) := by
  simp only [filledPrices, Arr.get_ofFn, returnOpt]
  rcases ha : lastOpt p i t with _ | a
  · rcases lastOpt p i (t + 1) with _ | b <;> rfl
  · rcases hb : lastOpt p i (t + 1) with _ | b
    · rfl
    · have := lastOpt_pos hp i (by omega) ha
      show XR.add (XR.div (XR.fin b) (XR.fin a)) (XR.neg (XR.fin 1)) = XR.fin _
      unfold XR.div
      dsimp only
      rw [if_neg this.ne']
      rfl

theorem pctChange_spec {T : ℕ} {p : ℕ → Fin m → Option ℝ} (hp : PositivePrices T p) (tm : ℕ → τ) :
    pctChange (priceFrame T tm p) = (List.range T).map fun t => (tm t, Arr.ofFn fun i => optXR (returnOpt p t i)) := by
  unfold pctChange priceFrame
  rw [List.range_eq_range', ← filledPrices_zero p, ffill_spec, change_spec]
  apply List.map_congr_left
  intro t ht
  rw [List.mem_range'_1] at ht
  congr 2
  funext i
  exact change_entry hp (by omega) i

theorem filter_map_range {A : Type} (q : A → Bool) (g : ℕ → A) (l : List ℕ) :
    (l.map g).filter q = (l.filter fun t => q (g t)).map g := List.filter_map

open Classical in
theorem demoReturns_spec {T : ℕ} {p : ℕ → Fin m → Option ℝ} (hp : PositivePrices T p) (tm : ℕ → τ) (columns : Fin n → Fin m) :
    demoReturns columns (priceFrame T tm p)
      = ((List.range T).filter fun t => decide (∃ j, (lastOpt p j t).isSome)).map fun t =>
          (tm t, Arr.ofFn fun i => optXR (returnOpt p t (columns i))) := by
  unfold demoReturns
  rw [pctChange_spec hp, filter_map_range, List.map_map]
  have e : ∀ t, (!(Arr.ofFn fun i => optXR (returnOpt p t i) : Arr (Fin m) XR).all XR.isNaN)
      = decide (∃ j, (lastOpt p j t).isSome) := by
    intro t
    rw [Bool.eq_iff_iff, Bool.not_eq_true', Bool.eq_false_iff, Ne, Arr.all_iff, decide_eq_true_iff, not_forall]
    refine exists_congr fun j => ?_
    rw [Arr.get_ofFn, optXR_isNaN, ← returnOpt_isSome]
    rcases returnOpt p t j with _ | b <;> simp
  simp only [e]
  apply List.map_congr_left
  intro t _
  simp [Function.comp]

theorem demo_rows (T : ℕ) (S : ℕ → Bool) (h0 : S 0 = false) :
    (List.range T).filter S = (List.range' 1 (T - 1)).filter S := by
  cases T with
  | zero => rfl
  | succ T =>
    rw [List.range_eq_range', List.range'_succ, List.filter_cons, h0]
    rfl

/-! ### later rows -/

theorem ffillRows_append (last : Arr (Fin m) XR) (f g : Frame τ (Fin m) XR) :
    ∃ g', ffillRows last (f ++ g) = ffillRows last f ++ g' := by
  induction f generalizing last with
  | nil => exact ⟨_, rfl⟩
  | cons a f ih =>
    obtain ⟨t, row⟩ := a
    rw [List.cons_append, ffillRows, ffillRows]
    obtain ⟨g', hg⟩ := ih (Arr.ofFn fun i => if (row i).isNaN then last i else row i)
    exact ⟨g', by rw [hg]; rfl⟩

theorem changeRows_append (prev : Arr (Fin m) XR) (f g : Frame τ (Fin m) XR) :
    ∃ g', changeRows prev (f ++ g) = changeRows prev f ++ g' := by
  induction f generalizing prev with
  | nil => exact ⟨_, rfl⟩
  | cons a f ih =>
    obtain ⟨t, row⟩ := a
    rw [List.cons_append, changeRows, changeRows]
    obtain ⟨g', hg⟩ := ih row
    exact ⟨g', by rw [hg]; rfl⟩

theorem demoReturns_append (columns : Fin n → Fin m) (f g : Frame τ (Fin m) XR) :
    ∃ g', demoReturns columns (f ++ g) = demoReturns columns f ++ g' := by
  unfold demoReturns pctChange
  obtain ⟨g1, h1⟩ := ffillRows_append missingRow f g
  rw [h1]
  obtain ⟨g2, h2⟩ := changeRows_append missingRow (ffillRows missingRow f) g1
  rw [h2, List.filter_append, List.map_append]
  exact ⟨_, rfl⟩

end CovPred
