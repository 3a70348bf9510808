import Verif.Spec.ExpertSets
import Verif.Props.Certificate
import Verif.Props.CombEquiv

/-
Property C190: leaving out and adding experts.
-/
set_option linter.unusedSectionVars false
namespace CovPred
open Matrix

variable {τ : Type} [LinearOrder τ] {n K J : ℕ}

theorem padWeights_pick {e : Fin J → Fin K} (he : Function.Injective e) (v : Vec J) (j : Fin J) : padWeights e v (e j) = v j := by
  have h : ∃ i, e i = e j := ⟨j, rfl⟩
  unfold padWeights
  rw [dif_pos h, he h.choose_spec]

theorem padWeights_other {e : Fin J → Fin K} (v : Vec J) {k : Fin K} (h : ∀ j, e j ≠ k) : padWeights e v k = 0 := by
  unfold padWeights
  rw [dif_neg (by push Not; exact h)]

/-- sums over all experts of padded weights -/
theorem sum_pad {e : Fin J → Fin K} (he : Function.Injective e) (v : Vec J) {A : Type} [AddCommMonoid A] [Module ℝ A] (f : Fin K → A) :
    ∑ k, padWeights e v k • f k = ∑ j, v j • f (e j) := by
  classical
  rw [← Finset.sum_subset (Finset.subset_univ (Finset.univ.image e)), Finset.sum_image fun a _ b _ h => he h]
  · simp only [padWeights_pick he]
  · intro k _ hk
    rw [padWeights_other, zero_smul]
    intro j hj
    exact hk (Finset.mem_image.2 ⟨j, Finset.mem_univ j, hj⟩)

theorem pad_restrict {e : Fin J → Fin K} (he : Function.Injective e) {w : Vec K} (h0 : ∀ k, (∀ j, e j ≠ k) → w k = 0) :
    padWeights e (fun j => w (e j)) = w := by
  funext k
  by_cases h : ∃ j, e j = k
  · obtain ⟨j, rfl⟩ := h
    rw [padWeights_pick he]
  · push Not at h
    rw [padWeights_other _ h, h0 k h]

theorem simplex_pad {e : Fin J → Fin K} (he : Function.Injective e) {v : Vec J} (hv : Simplex v) : Simplex (padWeights e v) := by
  refine ⟨fun k => ?_, ?_⟩
  · by_cases h : ∃ j, e j = k
    · obtain ⟨j, rfl⟩ := h
      rw [padWeights_pick he]; exact hv.nonneg j
    · push Not at h
      rw [padWeights_other _ h]
  · have := sum_pad he v fun _ => (1 : ℝ)
    simp only [smul_eq_mul, mul_one] at this
    rw [this, hv.sum_one]

theorem blendFactor_pad {e : Fin J → Fin K} (he : Function.Injective e) (S : Fin K → Mat n) (v : Vec J) :
    blendFactor S (padWeights e v) = blendFactor (fun j => S (e j)) v := sum_pad he v _

theorem blendCov_pad {e : Fin J → Fin K} (he : Function.Injective e) (S : Fin K → Mat n) (v : Vec J) :
    blendCov S (padWeights e v) = blendCov (fun j => S (e j)) v := by
  unfold blendCov; rw [blendFactor_pad he]

theorem blendMean_pad {e : Fin J → Fin K} (he : Function.Injective e) (S : Fin K → Mat n) (mu : Fin K → Vec n) (v : Vec J) :
    blendMean S mu (padWeights e v) = blendMean (fun j => S (e j)) (fun j => mu (e j)) v := by
  unfold blendMean
  rw [blendFactor_pad he, sum_pad he v fun k => (precFactor (S k))ᵀ *ᵥ mu k]

theorem logLik_pad {e : Fin J → Fin K} (he : Function.Injective e) (P : Panel τ n K) (W t : ℕ) (v : Vec J) :
    P.logLik W t (padWeights e v) = (P.pick e).logLik W t v := by
  unfold Panel.logLik
  refine Finset.sum_congr rfl fun s _ => ?_
  rw [blendCov_pad he, blendMean_pad he]
  rfl

theorem gram_pick (P : Panel τ n K) (e : Fin J → Fin K) (W t : ℕ) : (P.pick e).gram W t = (P.gram W t).submatrix e e := by
  unfold Panel.gram
  ext i j
  rw [Matrix.submatrix_apply, Matrix.sum_apply, Matrix.sum_apply]
  rfl

theorem request_pick {P : Panel τ n K} (e : Fin J → Fin K) {W : ℕ} {times : Option (List τ)} {a b : ℕ} (h : P.Request W times a b) :
    (P.pick e).Request W times a b := by
  cases h with
  | all => exact Panel.Request.all (P := P.pick e)
  | some z m hz hm hzm => exact Panel.Request.some (P := P.pick e) z m hz hm hzm

/-- both results of a time, over the same position -/
theorem two_results {P : Panel τ n K} {returns : Dict τ (Vec n)} {c : Comb τ n K} (h : P.Gives returns c) {e : Fin J → Fin K}
    {c' : Comb τ n J} (h' : (P.pick e).Gives returns c') (hlen : 2 ≤ P.len)
    {solver : Solver n K} {solver' : Solver n J} (hs : solver.Exact) (hs' : solver'.Exact) (window : Option ℕ) {times times' : Option (List τ)}
    {a b a' b' : ℕ} (hreq : P.Request (effWindow window (P.len - 1)) times a b) (hreq' : P.Request (effWindow window (P.len - 1)) times' a' b')
    {r : Result τ n K} {r' : Result τ n J} (hr : some r ∈ (c.solve solver window times).items)
    (hr' : some r' ∈ (c'.solve solver' window times').items) (htime : r'.time = r.time) :
    ∃ t, t < P.len ∧ effWindow window (P.len - 1) ≤ t ∧ r.time = P.time t ∧ (P.gram (effWindow window (P.len - 1)) t).PosDef ∧
      P.Optimal (effWindow window (P.len - 1)) t r.weights ∧ r = P.predict t r.weights ∧
      (P.pick e).Optimal (effWindow window (P.len - 1)) t r'.weights ∧ r' = (P.pick e).predict t r'.weights := by
  obtain ⟨t, h1, h2, h3, h4, hg, hopt, e1⟩ := exact_result h hlen hs window hreq hr
  obtain ⟨t', h1', h2', h3', h4', hg', hopt', e2⟩ := exact_result h' hlen hs' window (request_pick e hreq') hr'
  have : t' = t := time_inj h.ok (show t' < P.len from lt_of_lt_of_le h2' h3') (by omega) (by
    have : r'.time = (P.pick e).time t' := by rw [e2]; rfl
    have h5 : r.time = P.time t := by rw [e1]; rfl
    rw [← h5, ← htime, this]; rfl)
  subst this
  refine ⟨t', by omega, h4, by rw [e1]; rfl, hg, hopt, ?_, hopt', ?_⟩
  · have : r.weights = P.best (effWindow window (P.len - 1)) t' := by rw [e1]; rfl
    rw [this]; exact e1
  · have : r'.weights = (P.pick e).best (effWindow window (P.len - 1)) t' := by rw [e2]; rfl
    rw [this]; exact e2

/-- **C190.** More experts never make the window likelihood smaller. -/
theorem C190_more_experts {P : Panel τ n K} {returns : Dict τ (Vec n)} {c : Comb τ n K} (h : P.Gives returns c) {e : Fin J → Fin K}
    (he : Function.Injective e) {c' : Comb τ n J} (h' : (P.pick e).Gives returns c') (hlen : 2 ≤ P.len)
    (solver : Solver n K) (solver' : Solver n J) (hs : solver.Exact) (hs' : solver'.Exact) (window : Option ℕ) (times times' : Option (List τ))
    (a b a' b' : ℕ) (hreq : P.Request (effWindow window (P.len - 1)) times a b) (hreq' : P.Request (effWindow window (P.len - 1)) times' a' b')
    (r : Result τ n K) (r' : Result τ n J) (hr : some r ∈ (c.solve solver window times).items)
    (hr' : some r' ∈ (c'.solve solver' window times').items) (t : ℕ) (ht : t < P.len) (hrt : r.time = P.time t) (hrt' : r'.time = P.time t) :
    (P.pick e).logLik (effWindow window (P.len - 1)) t r'.weights ≤ P.logLik (effWindow window (P.len - 1)) t r.weights := by
  obtain ⟨t', h1, h2, h3, hg, hopt, _, hopt', _⟩ := two_results h h' hlen hs hs' window hreq hreq' hr hr' (by rw [hrt, hrt'])
  obtain rfl : t' = t := time_inj h.ok h1 ht (by rw [← h3, hrt])
  rw [← logLik_pad he]
  exact hopt.2 _ (simplex_pad he hopt'.1)

/-- Experts of weight zero can be left out: the prediction and the other weights do not change. -/
theorem C190_zero_weights {P : Panel τ n K} {returns : Dict τ (Vec n)} {c : Comb τ n K} (h : P.Gives returns c) {e : Fin J → Fin K}
    (he : Function.Injective e) {c' : Comb τ n J} (h' : (P.pick e).Gives returns c') (hlen : 2 ≤ P.len)
    (solver : Solver n K) (solver' : Solver n J) (hs : solver.Exact) (hs' : solver'.Exact) (window : Option ℕ) (times times' : Option (List τ))
    (a b a' b' : ℕ) (hreq : P.Request (effWindow window (P.len - 1)) times a b) (hreq' : P.Request (effWindow window (P.len - 1)) times' a' b')
    (r : Result τ n K) (r' : Result τ n J) (hr : some r ∈ (c.solve solver window times).items)
    (hr' : some r' ∈ (c'.solve solver' window times').items) (htime : r'.time = r.time)
    (h0 : ∀ k, (∀ j, e j ≠ k) → r.weights k = 0) :
    r'.mean = r.mean ∧ r'.covariance = r.covariance ∧ ∀ j, r'.weights j = r.weights (e j) := by
  obtain ⟨t, h1, h2, h3, hg, hopt, e1, hopt', e2⟩ := two_results h h' hlen hs hs' window hreq hreq' hr hr' htime
  have hpad := optimal_unique h.ok h2 h1 hg hopt (w' := padWeights e r'.weights) ⟨simplex_pad he hopt'.1, fun w hw => by
    refine le_trans (hopt.2 w hw) ?_
    have hz := pad_restrict he h0
    rw [logLik_pad he, ← hz, logLik_pad he]
    refine hopt'.2 _ ⟨fun j => hopt.1.nonneg _, ?_⟩
    have := sum_pad he (fun j => r.weights (e j)) fun _ => (1 : ℝ)
    simp only [smul_eq_mul, mul_one] at this
    rw [← this, hz, hopt.1.sum_one]⟩
  rw [e2, e1]
  simp only [Panel.predict]
  rw [hpad, blendMean_pad he, blendCov_pad he]
  exact ⟨rfl, rfl, fun j => (padWeights_pick he _ j).symm⟩

/-- What the left-out experts would add: at most the largest excess of their marginal scores over the average; and nothing, not even other
weights, if no left-out expert exceeds the average. -/
theorem C190_gain {P : Panel τ n K} {returns : Dict τ (Vec n)} {c : Comb τ n K} (h : P.Gives returns c) {e : Fin J → Fin K}
    (he : Function.Injective e) {c' : Comb τ n J} (h' : (P.pick e).Gives returns c') (hlen : 2 ≤ P.len)
    (solver : Solver n K) (solver' : Solver n J) (hs : solver.Exact) (hs' : solver'.Exact) (window : Option ℕ) (times times' : Option (List τ))
    (a b a' b' : ℕ) (hreq : P.Request (effWindow window (P.len - 1)) times a b) (hreq' : P.Request (effWindow window (P.len - 1)) times' a' b')
    (r : Result τ n K) (r' : Result τ n J) (hr : some r ∈ (c.solve solver window times).items)
    (hr' : some r' ∈ (c'.solve solver' window times').items) (t : ℕ) (ht : t < P.len) (hrt : r.time = P.time t) (hrt' : r'.time = P.time t)
    (d : ℝ) (hd : 0 ≤ d) (hm : ∀ k, (∀ j, e j ≠ k) → P.marginal (effWindow window (P.len - 1)) t (padWeights e r'.weights) k
      ≤ (P.pick e).average (effWindow window (P.len - 1)) t r'.weights + d) :
    P.logLik (effWindow window (P.len - 1)) t r.weights ≤ (P.pick e).logLik (effWindow window (P.len - 1)) t r'.weights + d ∧
    (d = 0 → r.mean = r'.mean ∧ r.covariance = r'.covariance ∧ r.weights = padWeights e r'.weights) := by
  obtain ⟨t', h1, h2, h3, hg, hopt, e1, hopt', e2⟩ := two_results h h' hlen hs hs' window hreq hreq' hr hr' (by rw [hrt, hrt'])
  obtain rfl : t' = t := time_inj h.ok h1 ht (by rw [← h3, hrt])
  set W := effWindow window (P.len - 1)
  have hmar : ∀ j, P.marginal W t' (padWeights e r'.weights) (e j) = (P.pick e).marginal W t' r'.weights j := fun j => by
    unfold Panel.marginal blendScore
    refine Finset.sum_congr rfl fun s _ => ?_
    rw [blendFactor_pad he, blendMean_pad he]
    rfl
  have havg : P.average W t' (padWeights e r'.weights) = (P.pick e).average W t' r'.weights := by
    unfold Panel.average
    have := sum_pad he r'.weights fun k => P.marginal W t' (padWeights e r'.weights) k
    simp only [smul_eq_mul] at this
    rw [this]
    exact Finset.sum_congr rfl fun j _ => by rw [hmar]
  have hall : ∀ k, P.marginal W t' (padWeights e r'.weights) k ≤ P.average W t' (padWeights e r'.weights) + d := fun k => by
    rw [havg]
    by_cases hk : ∃ j, e j = k
    · obtain ⟨j, rfl⟩ := hk
      rw [hmar]
      have := ((C127_optimal_iff h'.ok W t' ht r'.weights).1 hopt').2 j
      linarith
    · push Not at hk
      exact hm k hk
  have hsx := simplex_pad he hopt'.1
  refine ⟨?_, fun hd0 => ?_⟩
  · rw [← logLik_pad he]
    exact (C127_gap h.ok W t' ht _ hsx d hall).1 _ hopt.1
  · have hbest : P.Optimal W t' (padWeights e r'.weights) := (C127_optimal_iff h.ok W t' ht _).2 ⟨hsx, fun k => by
      have := hall k; rw [hd0, add_zero] at this; exact this⟩
    have hw := optimal_unique h.ok h2 ht hg hopt hbest
    rw [e1, e2]
    simp only [Panel.predict]
    rw [hw, blendMean_pad he, blendCov_pad he]
    exact ⟨rfl, rfl, rfl⟩

/-- If `solve` goes through with all experts, it goes through with some of them, for the same times. -/
theorem C190_still_solves {P : Panel τ n K} {returns : Dict τ (Vec n)} {c : Comb τ n K} (h : P.Gives returns c) {e : Fin J → Fin K}
    (he : Function.Injective e) {c' : Comb τ n J} (h' : (P.pick e).Gives returns c') (hlen : 2 ≤ P.len)
    (solver : Solver n K) (solver' : Solver n J) (hs : solver.Exact) (hc : solver.Complete) (hs' : solver'.Exact) (hc' : solver'.Complete)
    (window : Option ℕ) (times : Option (List τ)) (a b : ℕ) (hreq : P.Request (effWindow window (P.len - 1)) times a b)
    (hok : (c.solve solver window times).err = none) :
    (c'.solve solver' window times).err = none ∧
    (c'.solve solver' window times).items.map (Option.map Result.time) = (c.solve solver window times).items.map (Option.map Result.time) := by
  obtain ⟨hrun, hWa, hb⟩ := solve_run_request h hlen hs.feasible window hreq
  obtain ⟨hrun', hWa', hb'⟩ := solve_run_request h' hlen hs'.feasible window (request_pick e hreq)
  rcases run_exact h.ok h.experts hs hc hWa hb hrun with ⟨hg, e1⟩ | ⟨hg, e1⟩
  · rcases run_exact h'.ok h'.experts hs' hc' hWa' hb' hrun' with ⟨hg', e2⟩ | ⟨⟨t, h1, h2, h3⟩, e2⟩
    · rw [e1, e2]
      refine ⟨rfl, ?_⟩
      simp only [List.map_map]
      exact List.map_congr_left fun t _ => rfl
    · refine absurd ?_ h3
      rw [gram_pick]
      exact (hg t h1 h2).submatrix he
  · rw [e1] at hok
    exact absurd hok (by simp)

/-- The hypotheses are met: the demo (two experts) and its second expert alone. -/
example : ∃ (c : Comb _ 2 2) (c' : Comb _ 2 1), Demo.panel.Gives Demo.returns c ∧ (Demo.panel.pick ![1]).Gives Demo.returns c' ∧
    (c.solve (exactSolver 2 2) (some 2) none).err = none ∧
    ∃ r r', some r ∈ (c.solve (exactSolver 2 2) (some 2) none).items ∧ some r' ∈ (c'.solve (exactSolver 2 1) (some 2) none).items ∧
      r.time = Demo.panel.time 3 ∧ r'.time = Demo.panel.time 3 ∧
      (Demo.panel.pick ![1]).logLik 2 3 r'.weights ≤ Demo.panel.logLik 2 3 r.weights := by
  have hP : (Demo.panel.pick ![1]).Ok := ⟨Demo.panel_ok.time_lt, fun t ht k => Demo.panel_ok.posDef t ht _⟩
  have hG : (Demo.panel.pick ![1]).Gives Demo.returns _ :=
    ⟨hP, Demo.panel_covered, by norm_num, Or.inl (fromSigmas_panel hP (by norm_num) _)⟩
  have he : Function.Injective (![1] : Fin 1 → Fin 2) := Function.injective_of_subsingleton _
  have hc := Demo.panel_solve
  refine ⟨_, _, Demo.panel_gives, hG, by rw [hc], ?_⟩
  have hst := C190_still_solves Demo.panel_gives he hG (by show 2 ≤ 4; norm_num) _ _ exactSolver_exact exactSolver_complete
    (exactSolver_exact (n := 2) (K := 1)) exactSolver_complete (some 2) none _ _ .all (by rw [hc])
  rw [hc] at hst ⊢
  have hmem : some (Demo.panel.time 3) ∈ ((Demo.panel_gives : Demo.panel.Gives Demo.returns _) |> fun _ =>
    List.map (Option.map Result.time) [some (Demo.panel.predict 2 (Demo.panel.best 2 2)), some (Demo.panel.predict 3 (Demo.panel.best 2 3))]) := by
    simp [Panel.predict]
  rw [← hst.2] at hmem
  obtain ⟨o, ho, ho2⟩ := List.mem_map.1 hmem
  obtain ⟨r', rfl, hr't⟩ := Option.map_eq_some_iff.1 ho2
  refine ⟨Demo.panel.predict 3 (Demo.panel.best 2 3), r', by simp, ho, rfl, hr't, ?_⟩
  exact C190_more_experts Demo.panel_gives he hG (by show 2 ≤ 4; norm_num) (exactSolver 2 2) (exactSolver 2 1) exactSolver_exact exactSolver_exact
    (some 2) none none _ _ _ _ .all .all _ r' (by rw [hc]; simp) ho 3 (by show 3 < 4; norm_num) rfl hr't

end CovPred
