import Verif.Lemmas.Combination
import Verif.Spec.Solve
import Mathlib.Tactic.Ring
import Mathlib.Tactic.Linarith

/-
`solve` of `combination.py` on a panel: the preparation in closed form.
-/
namespace CovPred
open Matrix

set_option linter.unusedSectionVars false

variable {τ : Type} [LinearOrder τ] {n K : ℕ}

/-! ### list facts -/

theorem drop_range' (a N d : ℕ) : (List.range' a N).drop d = List.range' (a + d) (N - d) := by
  simp [List.drop_range', Nat.mul_one]

theorem take_range' (a N d : ℕ) : (List.range' a N).take d = List.range' a (min d N) := by
  apply List.ext_getElem
  · simp
  · intro i h1 h2; simp

theorem zip_range' (p q W : ℕ) (hW : 0 < W) {A : Type} (f : ℕ → A) :
    List.zip ((List.range' p q).map f) (((List.range' p q).map f).drop (W - 1))
      = (List.range' (p + W - 1) (q + 1 - W)).map fun t => (f (t + 1 - W), f t) := by
  apply List.ext_getElem
  · simp; omega
  · intro i h1 h2
    simp only [List.length_map, List.length_range'] at h2
    simp only [List.getElem_zip, List.getElem_map, List.getElem_range', List.getElem_drop, Nat.one_mul]
    congr 2 <;> omega

theorem idxOf_range' {time : ℕ → τ} {N : ℕ} (h : ∀ s t, s < t → t < N → time s < time t) (p q t : ℕ)
    (hpq : p + q ≤ N) (h1 : p ≤ t) (h2 : t < p + q) : ((List.range' p q).map time).idxOf (time t) = t - p := by
  have hnd : ((List.range' p q).map time).Nodup := by
    rw [List.nodup_map_iff_inj_on List.nodup_range']
    intro x hx y hy hxy
    simp only [List.mem_range'_1] at hx hy
    by_contra hne
    rcases lt_or_gt_of_ne hne with hlt | hgt
    · exact (h x y hlt (by omega)).ne hxy
    · exact (h y x hgt (by omega)).ne' hxy
  have hlt : t - p < ((List.range' p q).map time).length := by simp; omega
  have := hnd.idxOf_getElem (t - p) hlt
  rw [← this]
  congr 1
  simp only [List.getElem_map, List.getElem_range', Nat.one_mul]
  congr 1; omega

theorem find?_range' {time : ℕ → τ} {N : ℕ} (h : ∀ s t, s < t → t < N → time s < time t) (p q t : ℕ)
    (hpq : p + q ≤ N) (h1 : p ≤ t) (h2 : t < p + q) {A : Type} (f : ℕ → A) (key : A → τ)
    (hk : ∀ s, key (f s) = time s) :
    ((List.range' p q).map f).find? (fun o => key o = time t) = some (f t) := by
  rw [List.find?_eq_some_iff_append]
  refine ⟨by simp [hk], (List.range' p (t - p)).map f, (List.range' (t + 1) (p + q - (t + 1))).map f, ?_, ?_⟩
  · rw [← List.map_cons (f := f), ← List.map_append]
    congr 1
    have e : List.range' t (p + q - (t + 1) + 1) = t :: List.range' (t + 1) (p + q - (t + 1)) := List.range'_succ ..
    rw [← e]
    obtain ⟨d, rfl⟩ : ∃ d, t = p + d := ⟨t - p, by omega⟩
    rw [show p + d - p = d by omega, List.range'_append_1]
    congr 1; omega
  · intro o ho
    simp only [List.mem_map, List.mem_range'_1] at ho
    obtain ⟨s, hs, rfl⟩ := ho
    have := (h s t (by omega) (by omega)).ne
    simpa [hk] using this

/-! ### the preparation -/

/-- what `solve` derives from position `s ≥ 1` -/
noncomputable def Panel.obs (P : Panel τ n K) (s : ℕ) : Obs τ n K where
  time := P.time s
  B := P.scores s
  D := Matrix.of fun i k => precFactor (P.cov (s - 1) k) i i

theorem cholFactor_isChol {m : ℕ} {M : Mat m} (h : M.PosDef) : IsChol (cholFactor M) M := by
  unfold cholFactor
  have : ∃ L, IsChol L M := exists_chol h
  rw [dif_pos this]
  exact this.choose_spec

theorem chol?_eq {m : ℕ} {M : Mat m} (h : M.PosDef) : chol? M = .ok (cholFactor M) := by
  rw [chol?_ok_iff, symLower_of_symm (posDef_symm h)]
  exact cholFactor_isChol h

theorem shiftRows_panel (P : Panel τ n K) :
    shiftRows ((List.range P.len).map P.row)
      = (List.range' 1 (P.len - 1)).map fun s => { P.row (s - 1) with time := P.time s } := by
  unfold shiftRows
  apply List.ext_getElem
  · simp
  · intro i h1 h2
    simp only [List.length_map, List.length_range'] at h2
    simp only [List.getElem_zipWith, List.getElem_map, List.getElem_range, List.getElem_tail, List.getElem_range',
      Nat.one_mul, Nat.add_sub_cancel_left]
    simp [Panel.row, Nat.add_comm]

theorem obs_panel {P : Panel τ n K} {returns : Dict τ (Vec n)} (hr : P.Covered returns) :
    (shiftRows ((List.range P.len).map P.row)).mapM (obsOf returns) = .ok ((List.range' 1 (P.len - 1)).map P.obs) := by
  rw [shiftRows_panel, List.mapM_map]
  apply mapM_ok_of
  intro s hs
  simp only [List.mem_range'_1] at hs
  simp only [Function.comp]
  unfold obsOf
  simp only
  rw [hr s (by omega) (by omega)]
  simp only [Panel.obs, Panel.row, Panel.scores, Matrix.mulVec_sub]

theorem solveTimes_none (P : Panel τ n K) (W : ℕ) :
    solveTimes ((List.range' 1 (P.len - 1)).map P.time) W none = .ok ((List.range' 1 (P.len - 1)).map P.time) := rfl

/-- the list of times `solve` iterates over, for `m` requested times from position `z` on -/
theorem solveTimes_some {P : Panel τ n K} (hP : P.Ok) (W z m : ℕ) (hW0 : 0 < W) (hW : W ≤ P.len - 1) (hz : 0 < z) (hm : 0 < m)
    (hzm : z + m ≤ P.len) :
    solveTimes ((List.range' 1 (P.len - 1)).map P.time) W (some ((List.range' z m).map P.time))
      = .ok (if W ≤ z then (List.range' (z + 1 - W) (m + W - 1)).map P.time else (List.range' z m).map P.time) := by
  obtain ⟨m, rfl⟩ : ∃ m', m = m' + 1 := ⟨m - 1, by omega⟩
  rw [List.range'_succ, List.map_cons]
  unfold solveTimes
  dsimp only
  have hmem : P.time z ∈ (List.range' 1 (P.len - 1)).map P.time :=
    List.mem_map_of_mem (by simp only [List.mem_range'_1]; omega)
  rw [if_pos hmem]
  have hidx : ((List.range' 1 (P.len - 1)).map P.time).idxOf (P.time z) = z - 1 :=
    idxOf_range' hP.time_lt 1 (P.len - 1) z (by omega) (by omega) (by omega)
  simp only [hidx]
  have hslice : ∀ a b : ℕ, a ≤ b → b ≤ P.len - 1 →
      pySlice ((List.range' 1 (P.len - 1)).map P.time) (a : Int) (b : Int)
        = (List.range' (1 + a) (b - a)).map P.time := by
    intro a b hab hb
    unfold pySlice
    have ha' : ¬ ((a : Int) < 0) := by omega
    have hb' : ¬ ((b : Int) < 0) := by omega
    simp only [if_neg ha', if_neg hb', List.length_map, List.length_range']
    rw [show (min (b : Int) ((P.len - 1 : ℕ) : Int)).toNat = b by omega,
      show (min (a : Int) ((P.len - 1 : ℕ) : Int)).toNat = a by omega]
    rw [← List.map_take, ← List.map_drop, take_range', drop_range']
    congr 2; omega
  have hreq : P.time z :: (List.range' (z + 1) m).map P.time = (List.range' z (m + 1)).map P.time := by
    rw [List.range'_succ, List.map_cons]
  have hlen : (P.time z :: (List.range' (z + 1) m).map P.time).length = m + 1 := by simp
  rw [hlen]
  have hs1 := hslice (z - 1) (z + m) (by omega) (by omega)
  rw [show ((z - 1 : ℕ) : Int) + ((m + 1 : ℕ) : Int) = ((z + m : ℕ) : Int) by omega, hs1,
    show 1 + (z - 1) = z by omega, show z + m - (z - 1) = m + 1 by omega, if_pos hreq.symm]
  congr 1
  by_cases hWz : W ≤ z
  · rw [if_pos hWz]
    have hs2 := hslice (z - W) (z - 1)
    rw [show ((z - 1 : ℕ) : Int) - (W : Int) + 1 = ((z - W : ℕ) : Int) by omega, hs2 (by omega) (by omega), hreq,
      ← List.map_append]
    congr 1
    rw [show 1 + (z - W) = z + 1 - W by omega, show z - 1 - (z - W) = W - 1 by omega]
    obtain ⟨d, hd⟩ : ∃ d, z = z + 1 - W + d := ⟨W - 1, by omega⟩
    rw [show W - 1 = d by omega]
    conv_lhs => rhs; rw [hd]
    rw [List.range'_append_1]
    congr 1; omega
  · rw [if_neg hWz]
    have : pySlice ((List.range' 1 (P.len - 1)).map P.time) ((z - 1 : ℕ) - (W : Int) + 1) ((z - 1 : ℕ) : Int)
        = [] := by
      unfold pySlice
      have ha' : (((z - 1 : ℕ) - (W : Int) + 1) < 0) := by omega
      have hb' : ¬ (((z - 1 : ℕ) : Int) < 0) := by omega
      simp only [if_pos ha', if_neg hb', List.length_map, List.length_range']
      apply List.drop_eq_nil_of_le
      simp
      omega
    rw [this, List.nil_append]

theorem prodBs_panel {P : Panel τ n K} (hP : P.Ok) (p q : ℕ) (hp : 0 < p) (hpq : p + q ≤ P.len) :
    prodBs ((List.range' 1 (P.len - 1)).map P.obs) ((List.range' p q).map P.time)
      = .ok ((List.range' p q).map fun s => (P.time s, (P.scores s)ᵀ * P.scores s)) := by
  unfold prodBs
  rw [List.mapM_map]
  apply mapM_ok_of
  intro s hs
  simp only [List.mem_range'_1] at hs
  simp only [Function.comp]
  rw [find?_range' hP.time_lt 1 (P.len - 1) s (by omega) (by omega) (by omega) P.obs Obs.time fun _ => rfl]
  rfl

theorem labelSlice_panel {P : Panel τ n K} (hP : P.Ok) (p q a b : ℕ) (hpq : p + q ≤ P.len) (hpa : p ≤ a)
    (hab : a ≤ b) (hb : b < p + q) {A : Type} (f : ℕ → A) :
    labelSlice ((List.range' p q).map fun s => (P.time s, f s)) (P.time a) (P.time b)
      = (List.range' a (b + 1 - a)).map f := by
  unfold labelSlice
  have hkeys : ((List.range' p q).map fun s => (P.time s, f s)).map Prod.fst = (List.range' p q).map P.time := by
    simp [Function.comp_def]
  rw [hkeys, idxOf_range' hP.time_lt p q a hpq hpa (by omega), idxOf_range' hP.time_lt p q b hpq (by omega) hb,
    ← List.map_take, ← List.map_drop, take_range', drop_range', List.map_map,
    show p + (a - p) = a by omega, show min (b - p + 1) q - (a - p) = b + 1 - a by omega]
  rfl

theorem truncA_panel {P : Panel τ n K} (hP : P.Ok) (a b : ℕ) (ha : 0 < a) (hab : a ≤ b) (hb : b < P.len) :
    truncA ((List.range' 1 (P.len - 1)).map P.obs) (P.time a) (P.time b)
      = (List.range' a (b + 1 - a)).map fun s => (P.obs s).D := by
  unfold truncA
  rw [List.filter_map, List.map_map]
  congr 1
  have hle : ∀ s t, s < P.len → t < P.len → (P.time s ≤ P.time t ↔ s ≤ t) := by
    intro s t hs ht
    constructor
    · intro h
      by_contra hlt
      exact absurd (hP.time_lt t s (by omega) hs) (not_lt.mpr h)
    · intro h
      rcases Nat.lt_or_ge s t with hlt | hge
      · exact (hP.time_lt s t hlt ht).le
      · rw [show s = t by omega]
  have hcongr : (List.range' 1 (P.len - 1)).filter
        ((fun o : Obs τ n K => decide (P.time a ≤ o.time ∧ o.time ≤ P.time b)) ∘ P.obs)
      = (List.range' 1 (P.len - 1)).filter fun s => decide (a ≤ s ∧ s ≤ b) := by
    apply List.filter_congr
    intro s hs
    simp only [List.mem_range'_1] at hs
    simp only [Function.comp, decide_eq_decide]
    show P.time a ≤ P.time s ∧ P.time s ≤ P.time b ↔ _
    rw [hle a s (by omega) (by omega), hle s b (by omega) hb]
  rw [hcongr]
  have e1 : List.range' 1 (P.len - 1)
      = List.range' 1 (a - 1) ++ (List.range' a (b + 1 - a) ++ List.range' (b + 1) (P.len - 1 - b)) := by
    obtain ⟨d, rfl⟩ : ∃ d, b = a + d := ⟨b - a, by omega⟩
    rw [show a + d + 1 - a = d + 1 by omega, show a + d + 1 = a + (d + 1) by omega, List.range'_append_1]
    obtain ⟨a, rfl⟩ : ∃ a', a = 1 + a' := ⟨a - 1, by omega⟩
    rw [show 1 + a - 1 = a by omega, List.range'_append_1]
    congr 1; omega
  rw [e1, List.filter_append, List.filter_append]
  have f1 : (List.range' 1 (a - 1)).filter (fun s => decide (a ≤ s ∧ s ≤ b)) = [] := by
    rw [List.filter_eq_nil_iff]; intro s hs; simp only [List.mem_range'_1] at hs; simp; omega
  have f2 : (List.range' (b + 1) (P.len - 1 - b)).filter (fun s => decide (a ≤ s ∧ s ≤ b)) = [] := by
    rw [List.filter_eq_nil_iff]; intro s hs; simp only [List.mem_range'_1] at hs; simp; omega
  have f3 : (List.range' a (b + 1 - a)).filter (fun s => decide (a ≤ s ∧ s ≤ b)) = List.range' a (b + 1 - a) := by
    rw [List.filter_eq_self]; intro s hs; simp only [List.mem_range'_1] at hs; simp; omega
  rw [f1, f2, f3]
  simp

theorem sum_range'_eq {M : Type} [AddCommMonoid M] (f : ℕ → M) (a W : ℕ) (ha : 0 < a) :
    ((List.range' a W).map f).sum = ∑ s ∈ Finset.Ioc (a - 1) (a - 1 + W), f s := by
  induction W with
  | zero => simp
  | succ W ih =>
    rw [List.range'_concat, List.map_append, List.sum_append, ih]
    rw [show a - 1 + (W + 1) = a - 1 + W + 1 by omega, Finset.sum_Ioc_succ_top (by omega)]
    congr 1
    simp only [Nat.one_mul, List.map_cons, List.map_nil, List.sum_cons, List.sum_nil, add_zero]
    congr 1; omega

theorem gram_eq (P : Panel τ n K) (W t : ℕ) (hWt : W ≤ t) :
    ((List.range' (t + 1 - W) W).map fun s => (P.scores s)ᵀ * P.scores s).sum = P.gram W t := by
  rw [sum_range'_eq _ _ _ (by omega)]
  unfold Panel.gram
  congr 2 <;> omega

theorem gram_symm (P : Panel τ n K) (W t : ℕ) : (P.gram W t)ᵀ = P.gram W t := by
  unfold Panel.gram
  rw [Matrix.transpose_sum]
  apply Finset.sum_congr rfl
  intro s _
  rw [Matrix.transpose_mul, Matrix.transpose_transpose]

/-- The Cholesky factors of all window Gram matrices. -/
theorem pChols_panel {P : Panel τ n K} (hP : P.Ok) (W p q : ℕ) (hW : 0 < W) (hp : 0 < p) (hpq : p + q ≤ P.len) :
    (∀ t, p + W - 1 ≤ t → t < p + q → (P.gram W t).PosDef) →
    pChols W ((List.range' p q).map P.time) ((List.range' p q).map fun s => (P.time s, (P.scores s)ᵀ * P.scores s))
      = .ok ((List.range' (p + W - 1) (q + 1 - W)).map fun t => (P.params W t).C) := by
  intro h
  unfold pChols windowEnds
  rw [zip_range' p q W hW, List.mapM_map]
  apply mapM_ok_of
  intro t ht
  simp only [List.mem_range'_1] at ht
  simp only [Function.comp]
  rw [labelSlice_panel hP p q (t + 1 - W) t hpq (by omega) (by omega) (by omega), show t + 1 - (t + 1 - W) = W by omega,
    gram_eq P W t (by omega), chol?_eq (h t (by omega) (by omega))]
  rfl

theorem pChols_panel_error {P : Panel τ n K} (hP : P.Ok) (W p q : ℕ) (hW : 0 < W) (hp : 0 < p) (hpq : p + q ≤ P.len)
    (h : ∃ t, p + W - 1 ≤ t ∧ t < p + q ∧ ¬ (P.gram W t).PosDef) :
    pChols W ((List.range' p q).map P.time) ((List.range' p q).map fun s => (P.time s, (P.scores s)ᵀ * P.scores s))
      = .error .linAlgError := by
  obtain ⟨t, h1, h2, hnp⟩ := h
  unfold pChols windowEnds
  rw [zip_range' p q W hW, List.mapM_map]
  rcases hres : (List.range' (p + W - 1) (q + 1 - W)).mapM _ with e | l
  · obtain ⟨s, hs, hse⟩ := mapM_error _ _ _ hres
    simp only [Function.comp] at hse
    rcases chol?_cases (labelSlice ((List.range' p q).map fun s => (P.time s, (P.scores s)ᵀ * P.scores s))
      (P.time (s + 1 - W)) (P.time s)).sum with hc | ⟨L, hc⟩
    · rw [hc] at hse; cases hse; rfl
    · rw [hc] at hse; cases hse
  · rw [mapM_ok_iff_forall₂, List.forall₂_iff_get] at hres
    exfalso
    have hlt : t - (p + W - 1) < (List.range' (p + W - 1) (q + 1 - W)).length := by simp; omega
    have := hres.2 (t - (p + W - 1)) hlt (by rw [← hres.1]; exact hlt)
    simp only [List.get_eq_getElem, List.getElem_range', Nat.one_mul, Function.comp] at this
    rw [show p + W - 1 + (t - (p + W - 1)) = t by omega,
      labelSlice_panel hP p q (t + 1 - W) t hpq (by omega) (by omega) (by omega), show t + 1 - (t + 1 - W) = W by omega,
      gram_eq P W t (by omega), chol?_ok_iff, symLower_of_symm (gram_symm P W t)] at this
    exact hnp this.posDef

theorem cappedWindow_eq (window : Option ℕ) (N : ℕ) : cappedWindow window N = effWindow window N := by
  unfold cappedWindow effWindow
  rfl

theorem effWindow_le (window : Option ℕ) (N : ℕ) : effWindow window N ≤ N := by
  unfold effWindow
  split
  · exact le_refl _
  · split <;> omega

theorem effWindow_pos (window : Option ℕ) {N : ℕ} (h : 0 < N) : 0 < effWindow window N := by
  unfold effWindow
  split
  · exact h
  · split <;> omega

theorem zipWith_map_map {A B C D : Type} (f : B → C → D) (g : A → B) (h : A → C) (l : List A) :
    List.zipWith f (l.map g) (l.map h) = l.map fun a => f (g a) (h a) := by
  induction l with
  | nil => rfl
  | cons a l ih => simp [ih]

theorem ok_bind {A B : Type} (a : A) (f : A → Except Err B) : ((Except.ok a : Except Err A) >>= f) = f a := rfl

/-- The preparation, once the list of times is known to be the positions `p, ..., p + q - 1`. -/
theorem solvePrep_panel {P : Panel τ n K} (hP : P.Ok) {returns : Dict τ (Vec n)} (hr : P.Covered returns)
    (window : Option ℕ) (times : Option (List τ)) (W p q : ℕ) (hWdef : W = effWindow window (P.len - 1))
    (hW : 0 < W) (hp : 0 < p) (hpq : p + q ≤ P.len)
    (ht : solveTimes ((List.range' 1 (P.len - 1)).map P.time) W times = .ok ((List.range' p q).map P.time)) :
    ((∀ t, p + W - 1 ≤ t → t < p + q → (P.gram W t).PosDef) →
      solvePrep (P.comb returns) window times
        = .ok (W, (List.range' (p + W - 1) (q + 1 - W)).map fun t => (P.time t, P.params W t))) ∧
    ((∃ t, p + W - 1 ≤ t ∧ t < p + q ∧ ¬ (P.gram W t).PosDef) →
      solvePrep (P.comb returns) window times = .error .linAlgError) := by
  have hlen : (shiftRows ((List.range P.len).map P.row)).length = P.len - 1 := by
    rw [shiftRows_panel]; simp
  have hobs : ((List.range' 1 (P.len - 1)).map P.obs).map Obs.time = (List.range' 1 (P.len - 1)).map P.time := by
    rw [List.map_map]; rfl
  have key : solvePrep (P.comb returns) window times = (do
      let cs ← pChols W ((List.range' p q).map P.time)
        ((List.range' p q).map fun s => (P.time s, (P.scores s)ᵀ * P.scores s))
      pure (W, List.zipWith (fun ab C => (ab.2, ({ A := truncA ((List.range' 1 (P.len - 1)).map P.obs) ab.1 ab.2
                                                   C := C } : Params n K)))
        (windowEnds W ((List.range' p q).map P.time)) cs)) := by
    unfold solvePrep Panel.comb
    simp only [hlen, cappedWindow_eq, ← hWdef, obs_panel hr, ok_bind, hobs, ht, prodBs_panel hP p q hp hpq, if_neg hW.ne']
  constructor
  · intro h
    rw [key, pChols_panel hP W p q hW hp hpq h]
    show Except.ok _ = _
    congr 2
    unfold windowEnds
    rw [zip_range' p q W hW, zipWith_map_map]
    apply List.map_congr_left
    intro t ht
    simp only [List.mem_range'_1] at ht
    simp only
    rw [truncA_panel hP (t + 1 - W) t (by omega) (by omega) (by omega), show t + 1 - (t + 1 - W) = W by omega]
    rfl
  · intro h
    rw [key, pChols_panel_error hP W p q hW hp hpq h]
    rfl

end CovPred
