import Verif.Spec.Continuity
import Verif.Lemmas.Continuity
import Verif.Props.CombEquiv
import Verif.Props.CombExamples
import Verif.Lemmas.Regularize
import Verif.Lemmas.FromSigmas
import Mathlib.Algebra.Order.Chebyshev

/-
The combination depends continuously on its data: covariances, means and returns that differ a little give weights, means and covariances
that differ a little.
-/
set_option linter.unusedSectionVars false
namespace CovPred
open Matrix Filter

variable {τ : Type} [LinearOrder τ] {n K : ℕ}

private theorem tendsto_of_le {f : ℕ → ℝ} {a : ℝ} (h : ∀ m : ℕ, |f m - a| ≤ 1 / ((m : ℝ) + 1)) : Tendsto f atTop (nhds a) := by
  rw [tendsto_iff_dist_tendsto_zero]
  refine squeeze_zero (fun m => dist_nonneg) (fun m => ?_) tendsto_one_div_add_atTop_nhds_zero_nat
  rw [Real.dist_eq]
  exact h m

private theorem tends_of_close {P : Panel τ n K} {Q : ℕ → Panel τ n K} (hP : P.Ok) (hQ : ∀ m, (Q m).Ok)
    (h : ∀ m : ℕ, P.CloseBy (1 / ((m : ℝ) + 1)) (Q m)) : Panel.Tends Q P where
  okP := hP
  ok := hQ
  len := fun m => (h m).len
  cov := fun t ht k => tendsto_matrix_iff.2 fun i j => tendsto_of_le fun m => (h m).cov t ht k i j
  mean := fun t ht k => tendsto_pi_nhds.2 fun i => tendsto_of_le fun m => (h m).mean t ht k i
  ret := fun t ht h0 => tendsto_pi_nhds.2 fun i => tendsto_of_le fun m => (h m).ret t ht h0 i

theorem Panel.CloseBy.mono {P Q : Panel τ n K} {d d' : ℝ} (h : P.CloseBy d Q) (hd : d ≤ d') : P.CloseBy d' Q :=
  ⟨h.len, h.time, fun t ht k i j => (h.cov t ht k i j).trans hd, fun t ht k i => (h.mean t ht k i).trans hd,
    fun t ht h0 i => (h.ret t ht h0 i).trans hd⟩

private theorem gram_position {P : Panel τ n K} (hP : P.Ok) {W t : ℕ} (ht : t < P.len) (hg : (P.gram W t).PosDef) :
    ∃ d, 0 < d ∧ ∀ Q : Panel τ n K, Q.Ok → P.CloseBy d Q → (Q.gram W t).PosDef := by
  by_contra hcon
  push Not at hcon
  have hpos : ∀ m : ℕ, (0 : ℝ) < 1 / ((m : ℝ) + 1) := fun m => Nat.one_div_pos_of_nat
  choose Q hQok hQclose hQbad using fun m : ℕ => hcon (1 / ((m : ℝ) + 1)) (hpos m)
  obtain ⟨m, hm⟩ := (gram_eventually (tends_of_close hP hQok hQclose) ht hg).exists
  exact hQbad m hm

private theorem weights_position {P : Panel τ n K} (hP : P.Ok) (hK : 0 < K) {W t : ℕ} (hWt : W ≤ t) (ht : t < P.len) (hg : (P.gram W t).PosDef)
    {e : ℝ} (he : 0 < e) : ∃ d, 0 < d ∧ ∀ Q : Panel τ n K, Q.Ok → P.CloseBy d Q → ∀ w, Simplex w →
      (∀ w', Simplex w' → Q.logLik W t w' ≤ Q.logLik W t w + d) → (P.predict t (P.best W t)).Within e (Q.predict t w) := by
  by_contra hcon
  push Not at hcon
  have hpos : ∀ m : ℕ, (0 : ℝ) < 1 / ((m : ℝ) + 1) := fun m => Nat.one_div_pos_of_nat
  choose Q hQok hQclose w hwx hwn hQbad using fun m : ℕ => hcon (1 / ((m : ℝ) + 1)) (hpos m)
  have hT := tends_of_close hP hQok hQclose
  have hw := best_tendsto hT hK hWt ht hg tendsto_one_div_add_atTop_nhds_zero_nat hwx hwn
  have hb := (best_optimal hP hK hWt ht hg).1
  have hcov := blendCov_tendsto (fun m k => hT.pd ht m k) (hP.posDef t ht) (hT.cov t ht) hw hb
  have hmean := blendMean_tendsto (fun m k => hT.pd ht m k) (hP.posDef t ht) (hT.cov t ht) (hT.mean t ht) hw hb
  have e1 : ∀ᶠ m in atTop, ∀ k, |w m k - P.best W t k| < e := eventually_all.2 fun k =>
    (Metric.tendsto_nhds.1 (tendsto_pi_nhds.1 hw k) e he).mono fun m hm => by rwa [Real.dist_eq] at hm
  have e2 : ∀ᶠ m in atTop, ∀ i j, |blendCov ((Q m).cov t) (w m) i j - blendCov (P.cov t) (P.best W t) i j| < e :=
    eventually_all.2 fun i => eventually_all.2 fun j =>
      (Metric.tendsto_nhds.1 (tendsto_matrix_iff.1 hcov i j) e he).mono fun m hm => by rwa [Real.dist_eq] at hm
  have e3 : ∀ᶠ m in atTop, ∀ i, |blendMean ((Q m).cov t) ((Q m).mean t) (w m) i - blendMean (P.cov t) (P.mean t) (P.best W t) i| < e :=
    eventually_all.2 fun i => (Metric.tendsto_nhds.1 (tendsto_pi_nhds.1 hmean i) e he).mono fun m hm => by rwa [Real.dist_eq] at hm
  obtain ⟨m, h2, h3, h4⟩ := (e1.and (e2.and e3)).exists
  exact hQbad m ⟨(hQclose m).time t ht, h4, h3, h2⟩

/-- one tolerance for all positions -/
theorem positions_close {P : Panel τ n K} (hP : P.Ok) (hK : 0 < K) (W : ℕ) {e : ℝ} (he : 0 < e) :
    ∃ d, 0 < d ∧ ∀ Q : Panel τ n K, Q.Ok → P.CloseBy d Q → ∀ t < P.len, W ≤ t → (P.gram W t).PosDef →
      (Q.gram W t).PosDef ∧ ∀ w, Simplex w → (∀ w', Simplex w' → Q.logLik W t w' ≤ Q.logLik W t w + d) →
        (P.predict t (P.best W t)).Within e (Q.predict t w) := by
  have hone : ∀ t : Fin P.len, ∃ d, 0 < d ∧ ∀ Q : Panel τ n K, Q.Ok → P.CloseBy d Q → W ≤ t → (P.gram W t).PosDef →
      (Q.gram W t).PosDef ∧ ∀ w, Simplex w → (∀ w', Simplex w' → Q.logLik W t w' ≤ Q.logLik W t w + d) →
        (P.predict t (P.best W t)).Within e (Q.predict t w) := fun t => by
    by_cases hg : W ≤ (t : ℕ) ∧ (P.gram W t).PosDef
    · obtain ⟨d1, h1, h1'⟩ := gram_position hP t.2 hg.2
      obtain ⟨d2, h2, h2'⟩ := weights_position hP hK hg.1 t.2 hg.2 he
      exact ⟨min d1 d2, lt_min h1 h2, fun Q hQ hc _ _ => ⟨h1' Q hQ (hc.mono (min_le_left _ _)), fun w hw hn =>
        h2' Q hQ (hc.mono (min_le_right _ _)) w hw fun w' hw' => (hn w' hw').trans (by have := min_le_right d1 d2; linarith)⟩⟩
    · exact ⟨1, one_pos, fun Q _ _ h1 h2 => absurd ⟨h1, h2⟩ hg⟩
  choose d hd0 hd using hone
  by_cases hlen : 0 < P.len
  · have : Nonempty (Fin P.len) := ⟨⟨0, hlen⟩⟩
    obtain ⟨t0, ht0⟩ := Finite.exists_min d
    refine ⟨d t0, hd0 t0, fun Q hQ hc t ht hW hg => ?_⟩
    obtain ⟨h1, h2⟩ := hd ⟨t, ht⟩ Q hQ (hc.mono (ht0 ⟨t, ht⟩)) hW hg
    exact ⟨h1, fun w hw hn => h2 w hw fun w' hw' => (hn w' hw').trans (by have := ht0 ⟨t, ht⟩; linarith)⟩
  · exact ⟨1, one_pos, fun Q _ _ t ht => absurd ht (by omega)⟩

theorem request_close {P Q : Panel τ n K} {d : ℝ} (hc : P.CloseBy d Q) {W : ℕ} {times : Option (List τ)} {a b : ℕ}
    (h : P.Request W times a b) : Q.Request W times a b := by
  cases h with
  | all => rw [← hc.len]; exact Panel.Request.all
  | some z m hz hm hzm =>
    have : (List.range' z m).map P.time = (List.range' z m).map Q.time := List.map_congr_left fun t ht => by
      have ht := List.mem_range'_1.1 ht
      exact (hc.time t (by omega)).symm
    rw [this]
    exact Panel.Request.some z m hz hm (by rw [hc.len]; exact hzm)

/-- **C192.** The combination depends continuously on its data. For every `e > 0` there is `d > 0` such that, with any covariances, means and
returns entrywise within `d` of the given ones, every request that succeeds with the given data also succeeds with the others, yields as many
items, and every result is entrywise within `e` of the given one: same time, weights, mean and covariance. -/
theorem C192_continuous {P : Panel τ n K} {returns : Dict τ (Vec n)} {c : Comb τ n K} (h : P.Gives returns c) (hlen : 2 ≤ P.len)
    (window : Option ℕ) (e : ℝ) (he : 0 < e) :
    ∃ d, 0 < d ∧ ∀ (Q : Panel τ n K) (returns' : Dict τ (Vec n)) (c' : Comb τ n K), Q.Gives returns' c' → P.CloseBy d Q →
      ∀ (solver solver' : Solver n K), solver.Exact → solver.Complete → solver'.Exact → solver'.Complete →
      ∀ (times : Option (List τ)) (a b : ℕ), P.Request (effWindow window (P.len - 1)) times a b →
      (c.solve solver window times).err = none →
      (c'.solve solver' window times).err = none ∧
      List.Forall₂ (Option.Rel (Result.Within e)) (c.solve solver window times).items (c'.solve solver' window times).items := by
  obtain ⟨d, hd0, hd⟩ := positions_close h.ok h.experts (effWindow window (P.len - 1)) he
  refine ⟨d, hd0, fun Q returns' c' h' hclose solver solver' hs hcm hs' hcm' times a b hreq hok => ?_⟩
  have hql : Q.len = P.len := hclose.len
  obtain ⟨hrun, hWa, hb⟩ := solve_run_request h hlen hs.feasible window hreq
  have hreq' := request_close hclose hreq
  obtain ⟨hrun', _, hb'⟩ := solve_run_request h' (by rw [hql]; exact hlen) hs'.feasible window (by rw [hql]; exact hreq')
  rw [hql] at hrun'
  rcases run_exact h.ok h.experts hs hcm hWa hb hrun with ⟨hg, htr⟩ | ⟨_, htr⟩
  swap
  · rw [htr] at hok; cases hok
  rcases run_exact h'.ok h'.experts hs' hcm' hWa hb' hrun' with ⟨_, htr'⟩ | ⟨⟨t, h1, h2, h3⟩, _⟩
  swap
  · exact absurd (hd Q h'.ok hclose t (by omega) (by omega) (hg t h1 h2)).1 h3
  rw [htr, htr']
  refine ⟨rfl, ?_⟩
  rw [List.forall₂_map_left_iff, List.forall₂_map_right_iff]
  refine List.forall₂_same.2 fun t ht => ?_
  have ht := List.mem_range'_1.1 ht
  have hgt := hg t ht.1 (by omega)
  obtain ⟨hgq, hw⟩ := hd Q h'.ok hclose t (by omega) (by omega) hgt
  have hbq := best_optimal h'.ok h'.experts (W := effWindow window (P.len - 1)) (t := t) (by omega) (by omega) hgq
  exact .some (hw _ hbq.1 fun w' hw' => (hbq.2 w' hw').trans (by linarith))

/-- The same with a solver of tolerance `d` on the nearby data: every result it gives is entrywise within `e` of the result of the same time
computed exactly from the given data. -/
theorem C192_with_tolerance {P : Panel τ n K} {returns : Dict τ (Vec n)} {c : Comb τ n K} (h : P.Gives returns c) (hlen : 2 ≤ P.len)
    (window : Option ℕ) (e : ℝ) (he : 0 < e) :
    ∃ d, 0 < d ∧ ∀ (Q : Panel τ n K) (returns' : Dict τ (Vec n)) (c' : Comb τ n K), Q.Gives returns' c' → P.CloseBy d Q →
      ∀ (solver solver' : Solver n K), solver.Exact → solver'.Near d →
      ∀ (times times' : Option (List τ)) (a b a' b' : ℕ), P.Request (effWindow window (P.len - 1)) times a b →
      P.Request (effWindow window (P.len - 1)) times' a' b' →
      ∀ r r', some r ∈ (c.solve solver window times).items → some r' ∈ (c'.solve solver' window times').items → r'.time = r.time →
      r.Within e r' := by
  obtain ⟨d, hd0, hd⟩ := positions_close h.ok h.experts (effWindow window (P.len - 1)) he
  refine ⟨d, hd0, fun Q returns' c' h' hclose solver solver' hs hs' times times' a b a' b' hreq hreq' r r' hr hr' htime => ?_⟩
  have hql : Q.len = P.len := hclose.len
  obtain ⟨t, h1, h2, h3, hW, hg, _, hpr⟩ := exact_result h hlen hs window hreq hr
  have ht : t < P.len := by omega
  obtain ⟨_, _, hpr', hsx, hle⟩ := near_result h' (by rw [hql]; exact hlen) hs' window (by rw [hql]; exact request_close hclose hreq') hr'
    (t := t) (by rw [hql]; exact ht) (by rw [htime, hpr, hclose.time t ht]; rfl)
  rw [hql] at hle
  rw [hpr, hpr']
  exact (hd Q h'.ok hclose t ht hW hg).2 _ hsx hle

/-! ### nearby matrices that need not be symmetric -/

private theorem sum_abs_sq_le (v : Vec n) : (∑ i, |v i|) ^ 2 ≤ n * ∑ i, v i ^ 2 := by
  have := sq_sum_le_card_mul_sum_sq (s := (Finset.univ : Finset (Fin n))) (f := fun i => |v i|)
  simpa using this

/-- symmetric matrices close to a positive definite one are positive definite -/
theorem posDef_of_close {A B : Mat n} (hA : A.PosDef) (hB : Bᵀ = B) {d : ℝ} (hd : d * n * (1 + ∑ k, A⁻¹ k k) < 1)
    (hd0 : 0 ≤ d) (h : ∀ i j, |B i j - A i j| ≤ d) : B.PosDef := by
  refine Matrix.PosDef.of_dotProduct_mulVec_pos (by rw [Matrix.IsHermitian, Matrix.conjTranspose_eq_transpose_of_trivial, hB]) fun v hv => ?_
  rw [star_trivial]
  set tr := ∑ k, A⁻¹ k k with htr
  have htr0 : 0 ≤ tr := Finset.sum_nonneg fun k _ => (coord_le hA 0 k).1.le
  set q := v ⬝ᵥ (A *ᵥ v) with hq
  have hq1 : ∑ k, v k ^ 2 ≤ tr * q := by
    rw [htr, Finset.sum_mul]
    exact Finset.sum_le_sum fun k _ => (coord_le hA v k).2
  have hs : 0 < ∑ k, v k ^ 2 := by
    obtain ⟨k, hk⟩ := Function.ne_iff.1 hv
    exact lt_of_lt_of_le (pow_pos (abs_pos.2 hk) 2 |>.trans_eq (sq_abs _)) (Finset.single_le_sum (f := fun k => v k ^ 2) (fun k _ => sq_nonneg _) (Finset.mem_univ k))
  have hq0 : 0 < q := by
    have := hA.dotProduct_mulVec_pos hv
    rwa [star_trivial] at this
  have hdiff : |v ⬝ᵥ (B *ᵥ v) - q| ≤ d * (∑ i, |v i|) ^ 2 := by
    have e : v ⬝ᵥ (B *ᵥ v) - q = ∑ i, ∑ j, v i * ((B i j - A i j) * v j) := by
      rw [hq, ← dotProduct_sub, ← Matrix.sub_mulVec]
      simp only [dotProduct, Matrix.mulVec, Finset.mul_sum, Matrix.sub_apply]
    rw [e]
    calc |∑ i, ∑ j, v i * ((B i j - A i j) * v j)| ≤ ∑ i, ∑ j, |v i * ((B i j - A i j) * v j)| :=
          (Finset.abs_sum_le_sum_abs _ _).trans (Finset.sum_le_sum fun i _ => Finset.abs_sum_le_sum_abs _ _)
      _ ≤ ∑ i, ∑ j, d * (|v i| * |v j|) := Finset.sum_le_sum fun i _ => Finset.sum_le_sum fun j _ => by
          rw [abs_mul, abs_mul]
          have h1 := mul_le_mul_of_nonneg_right (h i j) (mul_nonneg (abs_nonneg (v i)) (abs_nonneg (v j)))
          calc |v i| * (|B i j - A i j| * |v j|) = |B i j - A i j| * (|v i| * |v j|) := by ring
            _ ≤ _ := h1
      _ = d * (∑ i, |v i|) ^ 2 := by rw [sq, Finset.sum_mul_sum, Finset.mul_sum]; simp only [Finset.mul_sum]
  have h1 : d * (∑ i, |v i|) ^ 2 ≤ d * (n * ∑ i, v i ^ 2) := mul_le_mul_of_nonneg_left (sum_abs_sq_le v) hd0
  have h2 : d * (n * ∑ i, v i ^ 2) ≤ d * n * (1 + tr) * q := by
    have : d * n * (∑ i, v i ^ 2) ≤ d * n * ((1 + tr) * q) := mul_le_mul_of_nonneg_left (by linarith) (by positivity)
    linarith
  have h3 : d * n * (1 + tr) * q < 1 * q := mul_lt_mul_of_pos_right hd hq0
  have h4 := (abs_le.1 hdiff).1
  linarith

theorem posDef_eventually {A : ℕ → Mat n} {B : Mat n} (hs : ∀ m, (A m)ᵀ = A m) (hA : Tendsto A atTop (nhds B)) (hB : B.PosDef) :
    ∀ᶠ m in atTop, (A m).PosDef := by
  set tr := ∑ k, B⁻¹ k k
  have htr0 : 0 ≤ tr := Finset.sum_nonneg fun k _ => (coord_le hB 0 k).1.le
  have hd0 : 0 < 1 / (2 * ((n + 1) * (1 + tr))) := by positivity
  have he : ∀ᶠ m in atTop, ∀ i j, |A m i j - B i j| < 1 / (2 * ((n + 1) * (1 + tr))) :=
    eventually_all.2 fun i => eventually_all.2 fun j =>
      (Metric.tendsto_nhds.1 (tendsto_matrix_iff.1 hA i j) _ hd0).mono fun m hm => by rwa [Real.dist_eq] at hm
  refine he.mono fun m hm => posDef_of_close hB (hs m) (d := 1 / (2 * ((n + 1) * (1 + tr)))) ?_ hd0.le fun i j => (hm i j).le
  rw [one_div, mul_assoc, inv_mul_lt_iff₀ (by positivity)]
  have : 0 ≤ (n : ℝ) * (1 + tr) := by positivity
  nlinarith

theorem symLower_tendsto {X : Type} {l : Filter X} {A : X → Mat n} {B : Mat n} (h : Tendsto A l (nhds B)) :
    Tendsto (fun x => symLower (A x)) l (nhds (symLower B)) := by
  rw [tendsto_matrix_iff] at h ⊢
  intro i j
  simp only [symLower, Matrix.of_apply]
  split
  · exact h _ _
  · exact h _ _

/-- the symmetric covariance that `np.linalg.cholesky(np.linalg.inv(S))` amounts to -/
noncomputable def effective (S : Mat n) : Mat n := (symLower S⁻¹)⁻¹

theorem effective_tendsto {A : ℕ → Mat n} {B : Mat n} (hA : Tendsto A atTop (nhds B)) (hB : B.PosDef) :
    Tendsto (fun m => effective (A m)) atTop (nhds B) ∧ ∀ᶠ m in atTop, (A m).det ≠ 0 ∧ (symLower (A m)⁻¹).PosDef := by
  have h1 := symLower_tendsto (tendsto_matrix_inv hA hB.det_pos.ne')
  rw [symLower_of_symm (posDef_symm hB.inv)] at h1
  refine ⟨?_, ?_⟩
  · have h2 := tendsto_matrix_inv h1 hB.inv.det_pos.ne'
    rwa [Matrix.nonsing_inv_nonsing_inv _ (isUnit_iff_ne_zero.2 hB.det_pos.ne')] at h2
  · have h3 : Tendsto (fun m => (A m).det) atTop (nhds B.det) := ((Continuous.matrix_det continuous_id).tendsto B).comp hA
    exact (h3.eventually_ne hB.det_pos.ne').and (posDef_eventually (fun m => symLower_symm _) h1 hB.inv)

/-- matrices close to a positive definite one are usable, and amount to matrices close to it -/
private theorem effective_close {A : Mat n} (hA : A.PosDef) {e : ℝ} (he : 0 < e) : ∃ d, 0 < d ∧ ∀ B : Mat n, (∀ i j, |B i j - A i j| ≤ d) →
    B.det ≠ 0 ∧ (symLower B⁻¹).PosDef ∧ ∀ i j, |effective B i j - A i j| ≤ e := by
  by_contra hcon
  push Not at hcon
  choose B hBc hbad using fun m : ℕ => hcon (1 / ((m : ℝ) + 1)) Nat.one_div_pos_of_nat
  have hB : Tendsto B atTop (nhds A) := tendsto_matrix_iff.2 fun i j => tendsto_of_le fun m => hBc m i j
  obtain ⟨h1, h2⟩ := effective_tendsto hB hA
  have h3 : ∀ᶠ m in atTop, ∀ i j, |effective (B m) i j - A i j| < e := eventually_all.2 fun i => eventually_all.2 fun j =>
    (Metric.tendsto_nhds.1 (tendsto_matrix_iff.1 h1 i j) e he).mono fun m hm => by rwa [Real.dist_eq] at hm
  obtain ⟨m, ⟨h4, h5⟩, h6⟩ := (h2.and h3).exists
  obtain ⟨i, j, hij⟩ := hbad m h4 h5
  exact absurd (h6 i j) (not_lt.2 hij.le)

/-- the panel of the symmetric covariances -/
private noncomputable def Panel.effective (Q : Panel τ n K) : Panel τ n K := { Q with cov := fun t k => CovPred.effective (Q.cov t k) }

private theorem mapM_congr_on {A B : Type} {l : List A} {f g : A → Except Err B} (h : ∀ a ∈ l, f a = g a) : l.mapM f = l.mapM g := by
  induction l with
  | nil => rfl
  | cons a l ih =>
    rw [List.mapM_cons, List.mapM_cons, h a (by simp), ih fun b hb => h b (by simp [hb])]

private theorem choleskyPrecision_effective {Q : Panel τ n K} (h : ∀ t < Q.len, ∀ k, (Q.cov t k).det ≠ 0 ∧ (symLower (Q.cov t k)⁻¹).PosDef)
    (k : Fin K) : choleskyPrecision (Q.sigmas k) = choleskyPrecision (Q.effective.sigmas k) := by
  unfold choleskyPrecision Panel.sigmas
  rw [List.mapM_map, List.mapM_map]
  refine mapM_congr_on fun t ht => ?_
  obtain ⟨h1, h2⟩ := h t (List.mem_range.1 ht) k
  simp only [Function.comp, Panel.effective]
  have e1 : inv? (Q.cov t k) = .ok (Q.cov t k)⁻¹ := by unfold inv?; rw [if_neg h1]
  have e2 : inv? (CovPred.effective (Q.cov t k)) = .ok (symLower (Q.cov t k)⁻¹) := by
    unfold inv? CovPred.effective
    rw [if_neg h2.inv.det_pos.ne', Matrix.nonsing_inv_nonsing_inv _ (isUnit_iff_ne_zero.2 h2.det_pos.ne')]
  have e3 : chol? (symLower (Q.cov t k)⁻¹) = chol? (Q.cov t k)⁻¹ := by
    unfold chol?
    rw [symLower_of_symm (symLower_symm _)]
  rw [e1, e2]
  show (do let L ← chol? (Q.cov t k)⁻¹; pure (Q.time t, L)) = (do let L ← chol? (symLower (Q.cov t k)⁻¹); pure (Q.time t, L))
  rw [e3]

private theorem fromSigmas_effective {Q : Panel τ n K} (h : ∀ t < Q.len, ∀ k, (Q.cov t k).det ≠ 0 ∧ (symLower (Q.cov t k)⁻¹).PosDef)
    (returns : Dict τ (Vec n)) (means : Option (Fin K → Option (Dict τ (Vec n)))) :
    fromSigmas Q.sigmas returns means = fromSigmas Q.effective.sigmas returns means := by
  have hk : ∀ k, Dict.keys (Q.sigmas k) = Dict.keys (Q.effective.sigmas k) := fun k => by
    unfold Dict.keys Panel.sigmas
    rw [List.map_map, List.map_map]
    rfl
  have hm : checkMeans Q.sigmas means = checkMeans Q.effective.sigmas means := by
    cases means with
    | none =>
      show Except.ok _ = Except.ok _
      congr 1
      funext k
      unfold Panel.sigmas
      rw [List.map_map, List.map_map]
      rfl
    | some m =>
      unfold checkMeans
      simp only [hk]
  unfold fromSigmas
  rw [hm]
  simp only [choleskyPrecision_effective h]

/-- Covariances near positive definite ones are accepted, whether they are symmetric or not: for every `e > 0` there is `d > 0` such that for
all data entrywise within `d` of the given ones the combination is built (with means, or without them if they are zero), every request that
succeeds with the given data succeeds, and the results are within `e`. -/
theorem C192_any_nearby {P : Panel τ n K} {returns : Dict τ (Vec n)} {c : Comb τ n K} (h : P.Gives returns c) (hlen : 2 ≤ P.len)
    (window : Option ℕ) (e : ℝ) (he : 0 < e) :
    ∃ d, 0 < d ∧ ∀ (Q : Panel τ n K) (returns' : Dict τ (Vec n)), P.CloseBy d Q → Q.Covered returns' →
      ∃ c', fromSigmas Q.sigmas returns' (some fun k => some (Q.means k)) = .ok c' ∧
        ((∀ t k, Q.mean t k = 0) → fromSigmas Q.sigmas returns' none = .ok c') ∧
        ∀ (solver solver' : Solver n K), solver.Exact → solver.Complete → solver'.Exact → solver'.Complete →
        ∀ (times : Option (List τ)) (a b : ℕ), P.Request (effWindow window (P.len - 1)) times a b →
        (c.solve solver window times).err = none →
        (c'.solve solver' window times).err = none ∧
        List.Forall₂ (Option.Rel (Result.Within e)) (c.solve solver window times).items (c'.solve solver' window times).items := by
  obtain ⟨d1, hd1, hmain⟩ := C192_continuous h hlen window e he
  have hone : ∀ (t : Fin P.len) (k : Fin K), ∃ d, 0 < d ∧ ∀ B : Mat n, (∀ i j, |B i j - P.cov t k i j| ≤ d) →
    B.det ≠ 0 ∧ (symLower B⁻¹).PosDef ∧ ∀ i j, |CovPred.effective B i j - P.cov t k i j| ≤ d1 := fun t k => effective_close (h.ok.posDef t t.2 k) hd1
  choose d hd0 hd using hone
  have : Nonempty (Fin P.len) := ⟨⟨0, by omega⟩⟩
  have : Nonempty (Fin K) := ⟨⟨0, h.experts⟩⟩
  obtain ⟨⟨t0, k0⟩, hmin⟩ := Finite.exists_min fun p : Fin P.len × Fin K => d p.1 p.2
  refine ⟨min d1 (d t0 k0), lt_min hd1 (hd0 _ _), fun Q returns' hc hcov => ?_⟩
  have hq : ∀ t < P.len, ∀ k, (Q.cov t k).det ≠ 0 ∧ (symLower (Q.cov t k)⁻¹).PosDef ∧
      ∀ i j, |CovPred.effective (Q.cov t k) i j - P.cov t k i j| ≤ d1 := fun t ht k =>
    hd ⟨t, ht⟩ k _ fun i j => (hc.cov t ht k i j).trans ((min_le_right _ _).trans (hmin (⟨t, ht⟩, k)))
  have hus : ∀ t < Q.len, ∀ k, (Q.cov t k).det ≠ 0 ∧ (symLower (Q.cov t k)⁻¹).PosDef := fun t ht k => by
    rw [hc.len] at ht
    exact ⟨(hq t ht k).1, (hq t ht k).2.1⟩
  have hok : Q.effective.Ok := ⟨fun s t hst ht => by
      have ht' : t < P.len := by rw [← hc.len]; exact ht
      show Q.time s < Q.time t
      rw [hc.time t ht', hc.time s (by omega)]
      exact h.ok.time_lt s t hst ht', fun t ht k => (hus t ht k).2.inv⟩
  have hclose : P.CloseBy d1 Q.effective := ⟨hc.len, hc.time, fun t ht k i j => (hq t ht k).2.2 i j,
    fun t ht k i => (hc.mean t ht k i).trans (min_le_left _ _), fun t ht h0 i => (hc.ret t ht h0 i).trans (min_le_left _ _)⟩
  have hb := fromSigmas_panel hok h.experts returns'
  have hg : Q.effective.Gives returns' (Q.effective.comb returns') := ⟨hok, hcov, h.experts, Or.inl hb⟩
  refine ⟨Q.effective.comb returns', ?_, fun h0 => ?_, fun solver solver' h1 h2 h3 h4 times a b hreq herr =>
    hmain Q.effective returns' _ hg hclose solver solver' h1 h2 h3 h4 times a b hreq herr⟩
  · rw [fromSigmas_effective hus]
    exact hb
  · rw [fromSigmas_effective hus, fromSigmas_panel_none hok h.experts]
    congr 1
    have : Q.effective.zeroMean = Q.effective := by
      unfold Panel.zeroMean
      have : (fun _ _ => 0 : ℕ → Fin K → Vec n) = Q.effective.mean := by funext t k; exact (h0 t k).symm
      rw [this]
    rw [this]

namespace ContinuityEx

/-- the demo with every variance of the first expert, every mean and every return a little larger -/
noncomputable def near (x : ℝ) : Panel ℕ 2 2 where
  len := 4
  time := id
  cov _ := ![(1 + x) • 1, (Demo.L1 * Demo.L1ᵀ)⁻¹]
  mean t k i := Demo.panel.mean t k i + x
  ret t i := Demo.panel.ret t i + x

theorem near_ok {x : ℝ} (hx : 0 ≤ x) : (near x).Ok where
  time_lt s t h _ := h
  posDef t _ k := by
    fin_cases k
    · exact Matrix.PosDef.smul Matrix.PosDef.one (by linarith)
    · exact Demo.isChol_L1.posDef.inv

/-- its frame of returns -/
noncomputable def returns (x : ℝ) : Dict ℕ (Vec 2) := (List.range 4).map fun t => (t, (near x).ret t)

theorem near_gives {x : ℝ} (hx : 0 ≤ x) : (near x).Gives (returns x) ((near x).comb (returns x)) where
  ok := near_ok hx
  covered := fun t _ ht => lookup_map_range (time := (id : ℕ → ℕ)) (N := 4) (fun s t h _ => h) _ t ht
  experts := by norm_num
  built := Or.inl (fromSigmas_panel (near_ok hx) (by norm_num) _)

theorem near_close {x : ℝ} (hx : 0 ≤ x) : Demo.panel.CloseBy x (near x) where
  len := rfl
  time := fun _ _ => rfl
  cov := fun t _ k i j => by
    fin_cases k
    · show |((1 + x) • (1 : Mat 2)) i j - (1 : Mat 2) i j| ≤ x
      rw [Matrix.smul_apply, Matrix.one_apply]
      split
      · simp [abs_of_nonneg hx]
      · simpa using hx
    · show |((Demo.L1 * Demo.L1ᵀ)⁻¹ : Mat 2) i j - ((Demo.L1 * Demo.L1ᵀ)⁻¹ : Mat 2) i j| ≤ x
      simpa using hx
  mean := fun t _ k i => by
    show |Demo.panel.mean t k i + x - Demo.panel.mean t k i| ≤ x
    rw [add_sub_cancel_left, abs_of_nonneg hx]
  ret := fun t _ _ i => by
    show |Demo.panel.ret t i + x - Demo.panel.ret t i| ≤ x
    rw [add_sub_cancel_left, abs_of_nonneg hx]

/-- The hypotheses are met: the demo, and data that really differ from it, give two runs with two results each, within a hundredth. -/
example : ∃ x, 0 < x ∧ (near x).ret ≠ Demo.panel.ret ∧
    List.Forall₂ (Option.Rel (Result.Within (1 / 100))) ((Demo.panel.comb Demo.returns).solve (exactSolver 2 2) (some 2) none).items
      (((near x).comb (returns x)).solve (exactSolver 2 2) (some 2) none).items ∧
    ((Demo.panel.comb Demo.returns).solve (exactSolver 2 2) (some 2) none).items.length = 2 := by
  obtain ⟨d, hd, h⟩ := C192_continuous Demo.panel_gives (by show 2 ≤ 4; norm_num) (some 2) (1 / 100) (by norm_num)
  have hc := Demo.panel_solve
  refine ⟨d, hd, fun he => ?_, ?_, by rw [hc]; rfl⟩
  · have := congrFun (congrFun he 0) 0
    change Demo.panel.ret 0 0 + d = Demo.panel.ret 0 0 at this
    linarith
  · exact (h (near d) (returns d) _ (near_gives hd.le) (near_close hd.le) (exactSolver 2 2) (exactSolver 2 2) exactSolver_exact
      exactSolver_complete exactSolver_exact exactSolver_complete none _ _ .all (by rw [hc])).2

/-- covariances that are not quite symmetric -/
noncomputable def skew (x : ℝ) : Panel ℕ 2 2 where
  len := 4
  time := id
  cov _ := ![!![1, x; 0, 1], (Demo.L1 * Demo.L1ᵀ)⁻¹]
  mean t k i := Demo.panel.mean t k i - x
  ret t i := Demo.panel.ret t i + x

theorem skew_close {x : ℝ} (hx : 0 ≤ x) : Demo.panel.CloseBy x (skew x) where
  len := rfl
  time := fun _ _ => rfl
  cov := fun t _ k i j => by
    fin_cases k
    · show |(!![1, x; 0, 1] : Mat 2) i j - (1 : Mat 2) i j| ≤ x
      fin_cases i <;> fin_cases j <;> simp [abs_of_nonneg hx, hx]
    · show |((Demo.L1 * Demo.L1ᵀ)⁻¹ : Mat 2) i j - ((Demo.L1 * Demo.L1ᵀ)⁻¹ : Mat 2) i j| ≤ x
      simpa using hx
  mean := fun t _ k i => by
    show |Demo.panel.mean t k i - x - Demo.panel.mean t k i| ≤ x
    rw [sub_sub_cancel_left, abs_neg, abs_of_nonneg hx]
  ret := fun t _ _ i => by
    show |Demo.panel.ret t i + x - Demo.panel.ret t i| ≤ x
    rw [add_sub_cancel_left, abs_of_nonneg hx]

/-- its frame of returns -/
noncomputable def skewReturns (x : ℝ) : Dict ℕ (Vec 2) := (List.range 4).map fun t => (t, (skew x).ret t)

/-- The hypotheses of `C192_any_nearby` are met by covariances that are not symmetric. -/
example : ∃ x, 0 < x ∧ ((skew x).cov 0 0)ᵀ ≠ (skew x).cov 0 0 ∧
    ∃ c', fromSigmas (skew x).sigmas (skewReturns x) (some fun k => some ((skew x).means k)) = .ok c' ∧
      List.Forall₂ (Option.Rel (Result.Within (1 / 100))) ((Demo.panel.comb Demo.returns).solve (exactSolver 2 2) (some 2) none).items
        (c'.solve (exactSolver 2 2) (some 2) none).items := by
  obtain ⟨d, hd, h⟩ := C192_any_nearby Demo.panel_gives (by show 2 ≤ 4; norm_num) (some 2) (1 / 100) (by norm_num)
  obtain ⟨c', h1, _, h2⟩ := h (skew d) (skewReturns d) (skew_close hd.le) fun t _ ht =>
    lookup_map_range (time := (id : ℕ → ℕ)) (N := 4) (fun s t h _ => h) _ t ht
  refine ⟨d, hd, fun he => ?_, c', h1, (h2 _ _ exactSolver_exact exactSolver_complete exactSolver_exact exactSolver_complete none _ _ .all
    (by rw [Demo.panel_solve])).2⟩
  have := congrFun (congrFun he 0) 1
  change (0 : ℝ) = d at this
  linarith

end ContinuityEx

end CovPred
