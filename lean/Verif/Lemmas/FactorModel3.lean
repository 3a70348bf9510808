import Verif.Lemmas.FactorModel2

/-
The blocks of the factor model.
-/
set_option linter.unusedSectionVars false
namespace CovPred
open Matrix XR

variable {τ : Type} [LinearOrder τ] {n k : ℕ} {L : Type} [DecidableEq L]

/-! ### pandas' exponential average -/

theorem pandasEwmLoop_spec {b : ℝ} (hb : 0 < b) (x : ℕ → ℝ) (m t : ℕ) :
    pandasEwmLoop b (emaAvg b x t) (∑ i ∈ Finset.range (t + 1), b ^ (t - i)) ((List.range' (t + 1) m).map x)
      = (List.range' (t + 1) m).map (emaAvg b x) := by
  induction m generalizing t with
  | zero => rfl
  | succ m ih =>
    have hd := emaAvg_den_pos hb t
    have hd' := emaAvg_den_pos hb (t + 1)
    have e1 : (∑ i ∈ Finset.range (t + 1), b ^ (t - i)) * b + 1 = ∑ i ∈ Finset.range (t + 1 + 1), b ^ (t + 1 - i) := by
      have := emaNum_succ b (fun _ => 1) t
      simp only [mul_one] at this
      rw [this]; ring
    have e2 : ((∑ i ∈ Finset.range (t + 1), b ^ (t - i)) * b * emaAvg b x t + x (t + 1)) /
        ((∑ i ∈ Finset.range (t + 1), b ^ (t - i)) * b + 1) = emaAvg b x (t + 1) := by
      rw [e1]
      conv_rhs => unfold emaAvg
      congr 1
      rw [emaNum_succ]
      unfold emaAvg
      field_simp
    rw [List.range'_succ, List.map_cons, List.map_cons]
    simp only [pandasEwmLoop]
    rw [e2, e1, ih (t + 1)]

theorem pandasEwm_spec {h : ℝ} (x : ℕ → ℝ) (N : ℕ) :
    pandasEwm h ((List.range N).map x) = (List.range N).map (halflifeAverage h x) := by
  cases N with
  | zero => rfl
  | succ N =>
    have h0 : halflifeAverage h x 0 = x 0 := by unfold halflifeAverage; simp
    rw [List.range_eq_range', List.range'_succ, List.map_cons, List.map_cons]
    simp only [pandasEwm, zero_add]
    rw [h0]
    congr 1
    have e : (1 - (1 - Real.exp (-Real.log 2 / h))) = betaOf h := by unfold betaOf; ring
    have hs := pandasEwmLoop_spec (betaOf_pos h) x N 0
    rw [← halflifeAverage_eq, h0] at hs
    simp only [zero_add, Finset.range_one, Finset.sum_singleton, Nat.sub_self, pow_zero] at hs
    rw [e, hs]
    apply List.map_congr_left
    intro t _
    rw [halflifeAverage_eq]

theorem ewmSquares_spec (N : ℕ) (tm : ℕ → τ) (v : ℕ → Vec n) :
    ewmSquares (rowDict N tm v) = rowDict N tm fun s i => halflifeAverage 21 (fun u => v u i ^ 2) s := by
  unfold ewmSquares rowDict
  apply List.ext_getElem
  · simp
  · intro j h1 h2
    simp only [List.length_map, List.length_range] at h2
    simp only [List.getElem_map, List.getElem_zip, List.getElem_range, List.map_map]
    congr 1
    funext i
    have e : (List.range N).map ((fun r : τ × Vec n => r.2 i ^ 2) ∘ fun s => (tm s, v s))
        = (List.range N).map fun u => v u i ^ 2 := rfl
    rw [e, pandasEwm_spec, List.getElem?_map, List.getElem?_range h2]
    rfl

/-! ### one block -/

theorem pyGet_rows (T : ℕ) (tm : ℕ → τ) (x : ℕ → Vec n) {i : Int} {j : ℕ} (hi : i = j) (hj : j < T) :
    pyGet ((rowDict T tm x).map Prod.fst) i = .ok (tm j) := by
  subst hi
  unfold pyGet
  have e : ((rowDict T tm x).map Prod.fst) = (List.range T).map tm := by unfold rowDict; rw [List.map_map]; rfl
  simp only [e]
  rw [if_neg (by omega), if_neg (by omega), Int.toNat_natCast, List.getElem?_map, List.getElem?_range hj]
  rfl

theorem train_rows {T : ℕ} {tm : ℕ → τ} (htm : Increasing T tm) (x : ℕ → Vec n) {memory t : ℕ} (hm : 0 < memory)
    (h1 : memory ≤ t) (h2 : t < T) :
    ((rowDict T tm x).filter fun p => p.1 ≤ tm (t - 1) ∧ tm (t - memory) ≤ p.1).map Prod.snd = trainingRows memory x t := by
  have e := filter_end htm x (e := t - 1) (by omega)
  have e2 : (rowDict T tm x).filter (fun p => p.1 ≤ tm (t - 1) ∧ tm (t - memory) ≤ p.1)
      = ((rowDict T tm x).filter fun p => p.1 ≤ tm (t - 1)).filter fun p => tm (t - memory) ≤ p.1 := by
    rw [List.filter_filter]
    congr 1
    funext p
    simp only [Bool.decide_and, Bool.and_comm]
  have htm' : Increasing (t - 1 + 1) tm := fun a b hab hb => htm a b hab (by omega)
  have e3 : rowDict (t - 1 + 1) tm x = (List.range' 0 (t - 1 + 1 - 0)).map fun s => (tm s, x s) := by
    unfold rowDict; rw [List.range_eq_range']; rfl
  rw [e2, e, e3, filter_start htm' x (Nat.zero_le _) (by omega), List.map_map]
  unfold trainingRows
  rw [show t - 1 + 1 - (t - memory) = memory by omega]
  rfl

/-- what the loop computes for row `s` of the block that starts at row `t` with the exposures `E`, for `N` rows of data -/
noncomputable def blockItem (label : XR × XR → L) (solvers : Solvers k) (pairs : List (ℝ × ℝ)) (tm : ℕ → τ)
    (x : ℕ → Vec n) (E : Matrix (Fin k) (Fin n) ℝ) (N t s : ℕ) : FactorModel τ n k where
  time := tm s
  exposure := E
  factorCov := blendCov (expertCov label pairs (factorRet E x) s)
    ((factorPanel label pairs tm (factorRet E x) (t - 10) N).weightsAt (solvers _) 10 10 (s - (t - 10)))
  diagonal i := halflifeAverage 21 (fun u => residual E x u i ^ 2) s

theorem genMap_map_ok {A B C : Type} (f : A → Except Err B) (g : C → A) (r : C → B) (l : List C)
    (h : ∀ c ∈ l, f (g c) = .ok (r c)) : genMap f (l.map g) = (l.map r, none) := by
  induction l with
  | nil => rfl
  | cons c l ih =>
    rw [List.map_cons, genMap_cons_ok f (h c List.mem_cons_self), ih fun b hb => h b (List.mem_cons_of_mem _ hb)]
    rfl

theorem factorBlock_spec (label : XR × XR → L) {pca : Pca n k} {solvers : Solvers k} {pairs : List (ℝ × ℝ)} {T : ℕ}
    {tm : ℕ → τ} {x : ℕ → Vec n} {freq memory : ℕ} (h : FactorSetup pca solvers pairs T tm x freq memory) {t : ℕ}
    (h1 : memory ≤ t) (h2 : t < T) {N : ℕ} (hN : N = min (t + freq) T) :
    (∃ e, factorBlock label pca solvers (rowDict T tm x) (pairs.map xr) freq memory t = ([], some e) ∧
      ∀ E, pca (trainingRows memory x t) = .ok E → ¬ (FiniteExperts label pairs (factorRet E x) (t - 10) N ∧
        (factorPanel label pairs tm (factorRet E x) (t - 10) N).Completes (solvers _) 10)) ∨
    (∃ E, pca (trainingRows memory x t) = .ok E ∧ FiniteExperts label pairs (factorRet E x) (t - 10) N ∧
      (factorPanel label pairs tm (factorRet E x) (t - 10) N).Completes (solvers _) 10 ∧
      factorBlock label pca solvers (rowDict T tm x) (pairs.map xr) freq memory t
        = ((List.range' t (N - t)).map (blockItem label solvers pairs tm x E N t), none)) := by
  have hk := h.factors
  have hw := h.warm
  have hstep := h.step
  obtain ⟨p0, ps, rfl⟩ : ∃ p0 ps, pairs = p0 :: ps := by
    cases hp : pairs with
    | nil => exact absurd hp h.pairs_ne
    | cons p0 ps => exact ⟨p0, ps, rfl⟩
  have hT : (((rowDict T tm x).map Prod.fst).length : Int) = T := by simp [rowDict]
  unfold factorBlock
  dsimp only
  rw [pyGet_rows T tm x (j := t - 1) (by omega) (by omega), ok_bind,
    pyGet_rows T tm x (j := t - memory) (by omega) (by omega), ok_bind,
    pyGet_rows T tm x (j := t - 10) (by omega) (by omega), ok_bind,
    pyGet_rows T tm x (j := N - 1) (by rw [hT]; omega) (by omega), ok_bind,
    train_rows h.labels x (by omega) h1 h2, filter_end h.labels x (by omega), show N - 1 + 1 = N by omega]
  rcases hE : pca (trainingRows memory x t) with e | E
  · left
    exact ⟨e, rfl, fun E' h' => by cases h'⟩
  · rw [ok_bind]
    have ef : ((rowDict N tm x).map fun p : τ × Vec n => (p.1, E *ᵥ p.2)) = rowDict N tm (factorRet E x) := by
      unfold rowDict; rw [List.map_map]; rfl
    have eu : ((rowDict N tm x).map fun p : τ × Vec n => (p.1, p.2 - (E *ᵥ p.2) ᵥ* E)) = rowDict N tm (residual E x) := by
      unfold rowDict residual
      rw [List.map_map]
      apply List.map_congr_left
      intro s _
      simp only [Function.comp, Matrix.mulVec_transpose]
    have htm : Increasing N tm := fun a b hab hb => h.labels a b hab (by omega)
    rw [ef, eu, ewmSquares_spec]
    have hc := construct_ok_iff hk label solvers h.feasible (h.awake t E h1 h2 hE) htm (s0 := t - 10) (by omega) (by omega)
      h.halflives
    rcases hd : constructFactorCovariance label solvers (rowDict N tm (factorRet E x)) ((p0 :: ps).map xr) (tm (t - 10)) with e | d
    · left
      refine ⟨e, rfl, fun E' h' hcon => ?_⟩
      cases h'
      have := (hc _).mpr ⟨hcon.1, hcon.2, rfl⟩
      rw [hd] at this
      cases this
    · right
      obtain ⟨hfin, hcomp, hdd⟩ := (hc d).mp hd
      refine ⟨E, rfl, hfin, hcomp, ?_⟩
      rw [ok_bind]
      show genMap _ d = _
      rw [hdd, show t - 10 + 10 = t by omega]
      apply genMap_map_ok
      intro s hs
      rw [List.mem_range'_1] at hs
      have := lookup_map_range (fun s t h1 h2 => htm s t h1 h2)
        (fun s i => halflifeAverage 21 (fun u => residual E x u i ^ 2) s : ℕ → Vec n) s (by omega)
      change (rowDict N tm _).lookup (tm s) = _ at this
      unfold factorItem
      rw [this]
      rfl

end CovPred
