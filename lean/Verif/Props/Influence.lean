import Verif.Spec.Influence
import Verif.Props.Certificate
import Verif.Props.CombExamples

/-
Property C195: how far revised returns can move the weights (combination.py:203-286).
-/
set_option linter.unusedSectionVars false
namespace CovPred
open Matrix

variable {τ : Type} [LinearOrder τ] {n K : ℕ}

private theorem gram_bilin (P : Panel τ n K) (W t : ℕ) (v w : Vec K) :
    v ⬝ᵥ (P.gram W t *ᵥ w) = ∑ s ∈ Finset.Ioc (t - W) t, (P.scores s *ᵥ v) ⬝ᵥ (P.scores s *ᵥ w) := by
  unfold Panel.gram
  rw [Matrix.sum_mulVec, dotProduct_sum]
  refine Finset.sum_congr rfl fun s _ => ?_
  rw [← Matrix.mulVec_mulVec, Matrix.dotProduct_mulVec, Matrix.vecMul_transpose]

/-- the weights react to the change of the Gram matrix only -/
theorem optimal_moves {P Q : Panel τ n K} (hP : P.Ok) (hQ : Q.Ok) (hsame : P.SameCovariances Q) {W t : ℕ} (ht : t < P.len) {w w' : Vec K}
    (hw : P.Optimal W t w) (hw' : Q.Optimal W t w') :
    (w' - w) ⬝ᵥ (P.gram W t *ᵥ (w' - w)) ≤ (w' - w) ⬝ᵥ ((P.gram W t - Q.gram W t) *ᵥ w') := by
  have htQ : t < Q.len := by rw [hsame.len]; exact ht
  have first : ∀ {R : Panel τ n K}, R.Ok → t < R.len → ∀ {u v : Vec K}, R.Optimal W t u → Simplex v → ∑ k, (v - u) k * R.marginal W t u k ≤ 0 := by
    intro R hR htR u v hu hv
    obtain ⟨_, h⟩ := (C127_optimal_iff hR W t htR u).1 hu
    have h1 : ∑ k, v k * R.marginal W t u k ≤ R.average W t u := by
      calc ∑ k, v k * R.marginal W t u k ≤ ∑ k, v k * R.average W t u :=
            Finset.sum_le_sum fun k _ => mul_le_mul_of_nonneg_left (h k) (hv.nonneg k)
        _ = R.average W t u := by rw [← Finset.sum_mul, hv.sum_one, one_mul]
    simp only [Pi.sub_apply, sub_mul, Finset.sum_sub_distrib]
    unfold Panel.average at h1
    linarith
  have h1 := first hP ht hw hw'.1
  have h2 := first hQ htQ hw' hw.1
  rw [sum_marginal hP ht hw.1, Finset.sum_sub_distrib, ← gram_bilin] at h1
  rw [sum_marginal hQ htQ hw'.1, Finset.sum_sub_distrib, ← gram_bilin] at h2
  have h3 : 0 ≤ ∑ s ∈ Finset.Ioc (t - W) t, ∑ i, blendFactor (P.cov (s - 1)) (w' - w) i i / blendFactor (P.cov (s - 1)) w i i
      + ∑ s ∈ Finset.Ioc (t - W) t, ∑ i, blendFactor (Q.cov (s - 1)) (w - w') i i / blendFactor (Q.cov (s - 1)) w' i i := by
    rw [← Finset.sum_add_distrib]
    refine Finset.sum_nonneg fun s hs => ?_
    rw [Finset.mem_Ioc] at hs
    have hs1 : s - 1 < P.len := by omega
    rw [← Finset.sum_add_distrib]
    refine Finset.sum_nonneg fun i _ => ?_
    have hc : Q.cov (s - 1) = P.cov (s - 1) := funext fun k => hsame.cov _ hs1 k
    rw [hc]
    have hb := blendFactor_pos (hP.posDef (s - 1) hs1) hw.1 i
    have hb' := blendFactor_pos (hP.posDef (s - 1) hs1) hw'.1 i
    have hd : ∀ u v : Vec K, blendFactor (P.cov (s - 1)) (u - v) i i = blendFactor (P.cov (s - 1)) u i i - blendFactor (P.cov (s - 1)) v i i := by
      intro u v
      unfold blendFactor
      simp only [Pi.sub_apply, sub_smul, Finset.sum_sub_distrib, Matrix.sub_apply]
    rw [hd, hd]
    set b := blendFactor (P.cov (s - 1)) w i i
    set b' := blendFactor (P.cov (s - 1)) w' i i
    have : (b' - b) / b + (b - b') / b' = (b' - b) ^ 2 / (b * b') := by field_simp; ring
    rw [this]
    positivity
  have h4 : w - w' = -(w' - w) := by abel
  have h5 : (w - w') ⬝ᵥ (Q.gram W t *ᵥ w') = -((w' - w) ⬝ᵥ (Q.gram W t *ᵥ w')) := by rw [h4, neg_dotProduct]
  rw [h5] at h2
  rw [Matrix.sub_mulVec, dotProduct_sub, Matrix.mulVec_sub, dotProduct_sub]
  linarith

theorem sum_sqrt_bound {G : Mat K} (hG : G.PosDef) {v : Vec K} {η : ℝ} (hη : v ⬝ᵥ (G *ᵥ v) ≤ η * ∑ k, |v k|) (hη0 : 0 ≤ η) :
    ∑ k, |v k| ≤ η * (∑ k, Real.sqrt (G⁻¹ k k)) ^ 2 := by
  set D := ∑ k, |v k| with hD
  have hD0 : 0 ≤ D := Finset.sum_nonneg fun _ _ => abs_nonneg _
  have hk : ∀ k, |v k| ≤ Real.sqrt (G⁻¹ k k) * Real.sqrt (η * D) := fun k => by
    obtain ⟨h1, h2⟩ := coord_le hG v k
    rw [← Real.sqrt_mul h1.le]
    refine Real.le_sqrt_of_sq_le ?_
    rw [sq_abs]
    exact h2.trans (mul_le_mul_of_nonneg_left hη h1.le)
  have hsum : D ≤ (∑ k, Real.sqrt (G⁻¹ k k)) * Real.sqrt (η * D) := by
    rw [Finset.sum_mul]
    exact Finset.sum_le_sum fun k _ => hk k
  rcases hD0.eq_or_lt with h0 | h0
  · rw [← h0]; positivity
  · have h1 : D ^ 2 ≤ (∑ k, Real.sqrt (G⁻¹ k k)) ^ 2 * (η * D) := by
      have := pow_le_pow_left₀ hD0 hsum 2
      rwa [mul_pow, Real.sq_sqrt (by positivity)] at this
    have h2 : D * D ≤ (η * (∑ k, Real.sqrt (G⁻¹ k k)) ^ 2) * D := by nlinarith
    exact le_of_mul_le_mul_right h2 h0

/-- **C195.** How far revised returns (or means) can move the weights, the covariances being the same: with `G` and `G'` the window Gram matrices of
the standardised returns, `(w' - w)ᵀ G (w' - w) ≤ (w' - w)ᵀ (G - G') w'`, and if no entry of the Gram matrix changes by more than `η`, the weights
change by at most `η (∑ √(G⁻¹)_kk)²` in total. -/
theorem C195_weights {P Q : Panel τ n K} {returns returns' : Dict τ (Vec n)} {c c' : Comb τ n K} (h : P.Gives returns c) (h' : Q.Gives returns' c')
    (hlen : 2 ≤ P.len) (hsame : P.SameCovariances Q) (solver solver' : Solver n K) (hs : solver.Exact) (hs' : solver'.Exact) (window : Option ℕ)
    (times times' : Option (List τ)) (a b a' b' : ℕ) (hreq : P.Request (effWindow window (P.len - 1)) times a b)
    (hreq' : Q.Request (effWindow window (P.len - 1)) times' a' b') (r r' : Result τ n K)
    (hr : some r ∈ (c.solve solver window times).items) (hr' : some r' ∈ (c'.solve solver' window times').items) (t : ℕ) (ht : t < P.len)
    (hrt : r.time = P.time t) (hrt' : r'.time = r.time) :
    (r'.weights - r.weights) ⬝ᵥ (P.gram (effWindow window (P.len - 1)) t *ᵥ (r'.weights - r.weights))
      ≤ (r'.weights - r.weights) ⬝ᵥ ((P.gram (effWindow window (P.len - 1)) t - Q.gram (effWindow window (P.len - 1)) t) *ᵥ r'.weights) ∧
    ∀ η : ℝ, (∀ k l, |Q.gram (effWindow window (P.len - 1)) t k l - P.gram (effWindow window (P.len - 1)) t k l| ≤ η) →
      ∑ k, |r'.weights k - r.weights k| ≤ η * (∑ k, Real.sqrt ((P.gram (effWindow window (P.len - 1)) t)⁻¹ k k)) ^ 2 := by
  have hql : Q.len = P.len := hsame.len
  obtain ⟨s, h1, h2, h3, _, hg, hopt, hr1⟩ := exact_result h hlen hs window hreq hr
  obtain ⟨s', g1, g2, g3, _, _, gopt, gr1⟩ := exact_result h' (by omega) hs' window (by rw [hql]; exact hreq') hr'
  have e1 : s = t := time_inj h.ok (by omega) ht (by rw [← hrt, hr1]; rfl)
  have e2 : s' = t := time_inj h'.ok (by omega) (by omega) (by rw [hsame.time t ht, ← hrt, ← hrt', gr1]; rfl)
  subst e1
  subst e2
  rw [hql] at gopt
  have hmove := optimal_moves h.ok h'.ok hsame ht hopt gopt
  refine ⟨hmove, fun η hη => ?_⟩
  set w := r.weights
  set w' := r'.weights
  have hK := h.experts
  have hη0 : 0 ≤ η := (abs_nonneg _).trans (hη ⟨0, hK⟩ ⟨0, hK⟩)
  refine sum_sqrt_bound (v := w' - w) hg (hmove.trans ?_) hη0
  unfold dotProduct
  rw [Finset.mul_sum]
  refine Finset.sum_le_sum fun k _ => ?_
  have hin : |((P.gram (effWindow window (P.len - 1)) s' - Q.gram (effWindow window (P.len - 1)) s') *ᵥ w') k| ≤ η := by
    unfold Matrix.mulVec dotProduct
    refine (Finset.abs_sum_le_sum_abs _ _).trans ?_
    calc ∑ l, |(P.gram (effWindow window (P.len - 1)) s' - Q.gram (effWindow window (P.len - 1)) s') k l * w' l| ≤ ∑ l, η * w' l :=
          Finset.sum_le_sum fun l _ => by
            rw [abs_mul, abs_of_nonneg (gopt.1.nonneg l), Matrix.sub_apply, abs_sub_comm]
            exact mul_le_mul_of_nonneg_right (hη k l) (gopt.1.nonneg l)
      _ = η := by rw [← Finset.mul_sum, gopt.1.sum_one, mul_one]
  calc (w' - w) k * ((P.gram (effWindow window (P.len - 1)) s' - Q.gram (effWindow window (P.len - 1)) s') *ᵥ w') k
      ≤ |(w' - w) k| * |((P.gram (effWindow window (P.len - 1)) s' - Q.gram (effWindow window (P.len - 1)) s') *ᵥ w') k| := by
        rw [← abs_mul]; exact le_abs_self _
    _ ≤ |(w' - w) k| * η := mul_le_mul_of_nonneg_left hin (abs_nonneg _)
    _ = η * |(w' - w) k| := mul_comm _ _

theorem score_sq {P : Panel τ n K} (hP : P.Ok) {s : ℕ} (hs : s - 1 < P.len) (k : Fin K) :
    ∑ i, P.scores s i k ^ 2 = P.surprise s k := by
  have hpd := hP.posDef (s - 1) hs k
  have hL := (precFactor_isChol hpd).eq
  unfold Panel.surprise
  rw [← hL, ← Matrix.mulVec_mulVec, Matrix.dotProduct_mulVec, ← Matrix.mulVec_transpose]
  unfold Panel.scores dotProduct
  exact Finset.sum_congr rfl fun i _ => by rw [Matrix.of_apply, sq]

/-- **C195.** One revised return has an influence of order 1/window. Let the two problems differ only in the return of one position `s` (or in what
was predicted as its mean), the squared standardised length of which is at most `M` for every expert, before and after; let the Gram matrix satisfy
`vᵀ G v ≥ λ · window · |v|²`. Then the weights change by at most `2 M K² / (λ · window)` in total. -/
theorem C195_one_return {P Q : Panel τ n K} {returns returns' : Dict τ (Vec n)} {c c' : Comb τ n K} (h : P.Gives returns c)
    (h' : Q.Gives returns' c') (hlen : 2 ≤ P.len) (hsame : P.SameCovariances Q) (solver solver' : Solver n K) (hs : solver.Exact)
    (hs' : solver'.Exact) (window : Option ℕ) (times times' : Option (List τ)) (a b a' b' : ℕ)
    (hreq : P.Request (effWindow window (P.len - 1)) times a b) (hreq' : Q.Request (effWindow window (P.len - 1)) times' a' b')
    (r r' : Result τ n K) (hr : some r ∈ (c.solve solver window times).items) (hr' : some r' ∈ (c'.solve solver' window times').items)
    (t : ℕ) (ht : t < P.len) (hrt : r.time = P.time t) (hrt' : r'.time = r.time) (s : ℕ) (hst : s ≤ t)
    (hone : ∀ u, 0 < u → u ≤ t → u ≠ s → Q.ret u = P.ret u ∧ ∀ k, Q.mean (u - 1) k = P.mean (u - 1) k) (M lam : ℝ)
    (hM : ∀ k, P.surprise s k ≤ M ∧ Q.surprise s k ≤ M) (hlam : 0 < lam)
    (hG : ∀ v : Vec K, lam * (effWindow window (P.len - 1) : ℝ) * (v ⬝ᵥ v) ≤ v ⬝ᵥ (P.gram (effWindow window (P.len - 1)) t *ᵥ v)) :
    ∑ k, |r'.weights k - r.weights k| ≤ 2 * M * (K : ℝ) ^ 2 / (lam * (effWindow window (P.len - 1) : ℝ)) := by
  obtain ⟨t0, h1, h2, h3, _, hg, _, hr1⟩ := exact_result h hlen hs window hreq hr
  have e1 : t0 = t := time_inj h.ok (by omega) ht (by rw [← hrt, hr1]; rfl)
  subst e1
  have hW0 : 0 < effWindow window (P.len - 1) := effWindow_pos window (by omega)
  have hb := (C195_weights h h' hlen hsame solver solver' hs hs' window times times' a b a' b' hreq hreq' r r' hr hr' t0 ht hrt hrt').2
  set W := effWindow window (P.len - 1) with hW
  have hK := h.experts
  by_cases hin : s ∈ Finset.Ioc (t0 - W) t0
  · have hsi := Finset.mem_Ioc.1 hin
    have hs1 : s - 1 < P.len := by omega
    have hM0 : 0 ≤ M := by
      have := (hM ⟨0, hK⟩).1
      rw [← score_sq h.ok hs1] at this
      exact (Finset.sum_nonneg fun i _ => sq_nonneg _).trans this
    have hcs : ∀ {R : Panel τ n K}, R.Ok → s - 1 < R.len → (∀ k, R.surprise s k ≤ M) → ∀ k l, |((R.scores s)ᵀ * R.scores s) k l| ≤ M := by
      intro R hR hRs hRM k l
      rw [Matrix.mul_apply]
      simp only [Matrix.transpose_apply]
      have c1 : ∀ k, ∑ i, R.scores s i k ^ 2 ≤ M := fun k => by rw [score_sq hR hRs]; exact hRM k
      refine (Finset.abs_sum_le_sum_abs _ _).trans ?_
      calc ∑ i, |R.scores s i k * R.scores s i l| ≤ ∑ i, (R.scores s i k ^ 2 + R.scores s i l ^ 2) / 2 :=
            Finset.sum_le_sum fun i _ => by
              rw [abs_mul]
              nlinarith [sq_nonneg (|R.scores s i k| - |R.scores s i l|), sq_abs (R.scores s i k), sq_abs (R.scores s i l)]
        _ ≤ M := by
              rw [← Finset.sum_div, Finset.sum_add_distrib]
              have := c1 k
              have := c1 l
              linarith
    have hdiff : ∀ k l, Q.gram W t0 k l - P.gram W t0 k l = ((Q.scores s)ᵀ * Q.scores s) k l - ((P.scores s)ᵀ * P.scores s) k l := by
      intro k l
      unfold Panel.gram
      rw [Matrix.sum_apply, Matrix.sum_apply, ← Finset.sum_sub_distrib, Finset.sum_eq_single_of_mem s hin]
      intro u hu hus
      rw [Finset.mem_Ioc] at hu
      have hQP : Q.scores u = P.scores u := by
        obtain ⟨g1, g2⟩ := hone u (by omega) hu.2 hus
        unfold Panel.scores
        ext i k
        rw [Matrix.of_apply, Matrix.of_apply, g1, g2, hsame.cov (u - 1) (by omega)]
      rw [hQP, sub_self]
    have hbound := hb (2 * M) fun k l => by
      rw [hdiff]
      have a1 := hcs h'.ok (by rw [hsame.len]; exact hs1) (fun k => (hM k).2) k l
      have a2 := hcs h.ok hs1 (fun k => (hM k).1) k l
      calc _ ≤ |((Q.scores s)ᵀ * Q.scores s) k l| + |((P.scores s)ᵀ * P.scores s) k l| := abs_sub _ _
        _ ≤ 2 * M := by linarith
    refine hbound.trans ?_
    have hWr : (0 : ℝ) < lam * (W : ℝ) := mul_pos hlam (by exact_mod_cast hW0)
    have hinv : ∀ k, (P.gram W t0)⁻¹ k k ≤ 1 / (lam * W) := fun k => by
      have hu : 0 < (P.gram W t0)⁻¹ k k := hg.inv.diag_pos
      have hdet : IsUnit (P.gram W t0).det := isUnit_iff_ne_zero.mpr hg.det_pos.ne'
      set u : Vec K := (P.gram W t0)⁻¹ *ᵥ Pi.single k 1 with hu'
      have hMu : P.gram W t0 *ᵥ u = Pi.single k 1 := by
        rw [hu', Matrix.mulVec_mulVec, Matrix.mul_nonsing_inv _ hdet, Matrix.one_mulVec]
      have huk : u k = (P.gram W t0)⁻¹ k k := by rw [hu']; simp
      have := hG u
      rw [hMu, dotProduct_single, mul_one, huk] at this
      have h5 : (P.gram W t0)⁻¹ k k ^ 2 ≤ u ⬝ᵥ u := by
        rw [← huk, sq]
        exact Finset.single_le_sum (f := fun i => u i * u i) (fun i _ => mul_self_nonneg _) (Finset.mem_univ k)
      rw [le_div_iff₀ hWr]
      nlinarith
    have hsq : ∑ k, Real.sqrt ((P.gram W t0)⁻¹ k k) ≤ K * Real.sqrt (1 / (lam * W)) := by
      calc _ ≤ ∑ _k : Fin K, Real.sqrt (1 / (lam * W)) := Finset.sum_le_sum fun k _ => Real.sqrt_le_sqrt (hinv k)
        _ = _ := by simp
    have hpos : 0 ≤ ∑ k, Real.sqrt ((P.gram W t0)⁻¹ k k) := Finset.sum_nonneg fun _ _ => Real.sqrt_nonneg _
    have h6 := pow_le_pow_left₀ hpos hsq 2
    rw [mul_pow, Real.sq_sqrt (by positivity)] at h6
    calc _ ≤ 2 * M * ((K : ℝ) ^ 2 * (1 / (lam * W))) := mul_le_mul_of_nonneg_left h6 (by linarith)
      _ = _ := by ring
  · have hsc : ∀ u ∈ Finset.Ioc (t0 - W) t0, Q.scores u = P.scores u := fun u hu => by
      have hu' := Finset.mem_Ioc.1 hu
      obtain ⟨g1, g2⟩ := hone u (by omega) hu'.2 fun e => hin (e ▸ hu)
      unfold Panel.scores
      ext i k
      rw [Matrix.of_apply, Matrix.of_apply, g1, g2, hsame.cov (u - 1) (by omega)]
    have hgr : Q.gram W t0 = P.gram W t0 := Finset.sum_congr rfl fun u hu => by rw [hsc u hu]
    have := hb 0 fun k l => by rw [hgr, sub_self, abs_zero]
    rw [zero_mul] at this
    refine this.trans ?_
    have hM0 : 0 ≤ M := by
      have := (hM ⟨0, hK⟩).1
      rw [← score_sq h.ok (by omega)] at this
      exact (Finset.sum_nonneg fun i _ => sq_nonneg _).trans this
    positivity

namespace InfluenceEx

/-- the demo over `N + 1` times, the last return of the second asset being larger by `x` -/
noncomputable def long (N : ℕ) (x : ℝ) : Panel ℕ 2 2 where
  len := N + 1
  time := id
  cov _ := ![1, (Demo.L1 * Demo.L1ᵀ)⁻¹]
  mean _ := ![0, ![0, 1]]
  ret t := if t = N then ![1, 2 + x] else ![1, 2]

/-- its frame of returns -/
noncomputable def returns (N : ℕ) (x : ℝ) : Dict ℕ (Vec 2) := (List.range (N + 1)).map fun t => (t, (long N x).ret t)

theorem long_ok (N : ℕ) (x : ℝ) : (long N x).Ok where
  time_lt s t h _ := h
  posDef t _ k := by
    fin_cases k
    · exact Matrix.PosDef.one
    · exact Demo.isChol_L1.posDef.inv

theorem long_gives (N : ℕ) (x : ℝ) : (long N x).Gives (returns N x) ((long N x).comb (returns N x)) where
  ok := long_ok N x
  covered := fun t _ ht => lookup_map_range (time := (id : ℕ → ℕ)) (N := N + 1) (fun s t h _ => h) _ t ht
  experts := by norm_num
  built := Or.inl (fromSigmas_panel (long_ok N x) (by norm_num) _)

theorem long_scores (N : ℕ) (x : ℝ) (s : ℕ) :
    (long N x).scores s = if s = N then !![1, 2 + x; 2 + x, 2 + 2 * x] else !![1, 2; 2, 2] := by
  have h0 : precFactor ((long N x).cov (s - 1) 0) = 1 := Demo.precFactor_0 0
  have h1 : precFactor ((long N x).cov (s - 1) 1) = Demo.L1 := Demo.precFactor_1 0
  by_cases hs : s = N
  · rw [if_pos hs]
    ext i k
    unfold Panel.scores
    rw [Matrix.of_apply]
    fin_cases k
    · show ((precFactor ((long N x).cov (s - 1) 0))ᵀ *ᵥ _) i = _
      rw [h0]
      fin_cases i <;> simp [long, hs]
    · show ((precFactor ((long N x).cov (s - 1) 1))ᵀ *ᵥ _) i = _
      rw [h1]
      fin_cases i <;> simp [long, hs, Demo.L1, Matrix.mulVec, dotProduct, Fin.sum_univ_two] <;> ring
  · rw [if_neg hs]
    ext i k
    unfold Panel.scores
    rw [Matrix.of_apply]
    fin_cases k
    · show ((precFactor ((long N x).cov (s - 1) 0))ᵀ *ᵥ _) i = _
      rw [h0]
      fin_cases i <;> simp [long, hs]
    · show ((precFactor ((long N x).cov (s - 1) 1))ᵀ *ᵥ _) i = _
      rw [h1]
      fin_cases i <;> simp [long, hs, Demo.L1, Matrix.mulVec, dotProduct, Fin.sum_univ_two] <;> norm_num

theorem long_quad (N : ℕ) {x : ℝ} (hx : 0 = x ∨ 1 = x) (v : Vec 2) : 1 / 5 * (N : ℝ) * (v ⬝ᵥ v) ≤ v ⬝ᵥ ((long N x).gram N N *ᵥ v) := by
  rw [gram_bilin]
  have : (1 : ℝ) / 5 * (N : ℝ) * (v ⬝ᵥ v) = ∑ _s ∈ Finset.Ioc (N - N) N, 1 / 5 * (v ⬝ᵥ v) := by
    rw [Finset.sum_const, Nat.card_Ioc, nsmul_eq_mul, Nat.sub_self, Nat.sub_zero]; ring
  rw [this]
  refine Finset.sum_le_sum fun s _ => ?_
  rw [long_scores]
  split
  · rcases hx with rfl | rfl <;>
    · simp only [dotProduct, Matrix.mulVec, Fin.sum_univ_two, Matrix.of_apply, Matrix.cons_val_zero, Matrix.cons_val_one]
      nlinarith [sq_nonneg (v 0 + 5 / 4 * v 1), sq_nonneg (v 0), sq_nonneg (v 1), sq_nonneg (v 0 + 3 / 2 * v 1)]
  · simp only [dotProduct, Matrix.mulVec, Fin.sum_univ_two, Matrix.of_apply, Matrix.cons_val_zero, Matrix.cons_val_one]
    nlinarith [sq_nonneg (v 0 + 5 / 4 * v 1), sq_nonneg (v 0), sq_nonneg (v 1)]

theorem long_gram (N : ℕ) (hN : 0 < N) {x : ℝ} (hx : 0 = x ∨ 1 = x) : ((long N x).gram N N).PosDef := by
  refine Matrix.PosDef.of_dotProduct_mulVec_pos ?_ fun v hv => ?_
  · ext i j
    rw [Matrix.conjTranspose_apply, star_trivial]
    unfold Panel.gram
    rw [Matrix.sum_apply, Matrix.sum_apply]
    refine Finset.sum_congr rfl fun s _ => ?_
    rw [Matrix.mul_apply, Matrix.mul_apply]
    exact Finset.sum_congr rfl fun l _ => by rw [Matrix.transpose_apply, Matrix.transpose_apply]; ring
  · rw [star_trivial]
    refine lt_of_lt_of_le ?_ (long_quad N hx v)
    have h1 : (0 : ℝ) < N := by exact_mod_cast hN
    have h2 : 0 < v ⬝ᵥ v := by
      obtain ⟨k, hk⟩ := Function.ne_iff.1 hv
      exact Finset.sum_pos' (fun i _ => mul_self_nonneg _) ⟨k, Finset.mem_univ k, mul_self_pos.2 hk⟩
    positivity

theorem long_surprise (N : ℕ) {x : ℝ} (hx : 0 = x ∨ 1 = x) (k : Fin 2) : (long N x).surprise N k ≤ 25 := by
  rw [← score_sq (long_ok N x) (by show N - 1 < N + 1; omega), long_scores, if_pos rfl, Fin.sum_univ_two]
  rcases hx with rfl | rfl <;> fin_cases k <;> simp <;> norm_num

theorem long_solve (N : ℕ) (hN : 0 < N) {x : ℝ} (hx : 0 = x ∨ 1 = x) :
    (((long N x).comb (returns N x)).solve (exactSolver 2 2) none none).items = [some ((long N x).predict N ((long N x).best N N))] := by
  have h := solve_run_none (long_gives N x) (by show 2 ≤ N + 1; omega) exactSolver_exact.feasible none
  have hw : effWindow none ((long N x).len - 1) = N := rfl
  rw [hw] at h
  rw [run_complete (long_ok N x) (by norm_num) exactSolver_exact exactSolver_complete le_rfl le_rfl h fun t h1 h2 => by
    have h2' : t < N + 1 := h2
    have : t = N := by omega
    rw [this]; exact long_gram N hN hx]
  have : (long N x).len - N = 1 := by show N + 1 - N = 1; omega
  rw [this]
  rfl

/-- The hypotheses of both theorems are met at every length: `N` equal returns, the last of which is then revised; every run yields one result, and
the total change of the two weights is at most `1000 / N`. -/
example (N : ℕ) (hN : 0 < N) : ∃ r r' : Result ℕ 2 2,
    (((long N 0).comb (returns N 0)).solve (exactSolver 2 2) none none).items = [some r] ∧
    (((long N 1).comb (returns N 1)).solve (exactSolver 2 2) none none).items = [some r'] ∧
    (long N 1).ret N ≠ (long N 0).ret N ∧ ∑ k, |r'.weights k - r.weights k| ≤ 1000 / N := by
  have e0 := long_solve N hN (Or.inl rfl)
  have e1 := long_solve N hN (Or.inr rfl)
  refine ⟨_, _, e0, e1, fun h => ?_, ?_⟩
  · have := congrFun h 1
    simp [long] at this
  · have hw : effWindow none ((long N 0).len - 1) = N := rfl
    have := C195_one_return (long_gives N 0) (long_gives N 1) (by show 2 ≤ N + 1; omega) ⟨rfl, fun _ _ => rfl, fun _ _ _ => rfl⟩
      (exactSolver 2 2) (exactSolver 2 2) exactSolver_exact exactSolver_exact none none none _ _ _ _ .all .all
      ((long N 0).predict N ((long N 0).best N N)) ((long N 1).predict N ((long N 1).best N N))
      (by rw [e0]; exact List.mem_singleton_self _) (by rw [e1]; exact List.mem_singleton_self _) N (by show N < N + 1; omega) rfl rfl N le_rfl
      (fun u _ _ hu => ⟨by simp [long, hu], fun _ => rfl⟩) 25 (1 / 5) (fun k => ⟨long_surprise N (Or.inl rfl) k, long_surprise N (Or.inr rfl) k⟩)
      (by norm_num) (by rw [hw]; exact long_quad N (Or.inl rfl))
    rw [hw] at this
    refine this.trans (le_of_eq ?_)
    have : (N : ℝ) ≠ 0 := by exact_mod_cast hN.ne'
    field_simp
    norm_num

end InfluenceEx

end CovPred
