import Verif.Lemmas.Continuity

/-
Blends with the optimal weights of two panels with the same returns: close, uniformly over a bounded set of panels, if the covariances are close.
Used for property C207.
-/
set_option linter.unusedSectionVars false
namespace CovPred
open Matrix Filter

variable {n K : ℕ}

theorem posDef_limit {S : ℕ → Mat n} {S0 : Mat n} (h : ∀ m, (S m).PosDef) (hS : Tendsto S atTop (nhds S0)) {p0 : ℝ} (hp0 : 0 < p0)
    (hd : ∀ m, p0 ≤ (S m).det) : S0.PosDef := by
  have hd0 : p0 ≤ S0.det := ge_of_tendsto' (((Continuous.matrix_det continuous_id).tendsto S0).comp hS) hd
  have hsymm : S0.IsHermitian := by
    ext i j
    rw [Matrix.conjTranspose_apply, star_trivial]
    refine tendsto_nhds_unique (tendsto_matrix_iff.1 hS j i) ((tendsto_matrix_iff.1 hS i j).congr fun m => ?_)
    have := congrFun (congrFun (h m).1 i) j
    rw [Matrix.conjTranspose_apply, star_trivial] at this
    exact this.symm
  have hpsd : S0.PosSemidef := by
    refine Matrix.PosSemidef.of_dotProduct_mulVec_nonneg hsymm fun v => ?_
    refine ge_of_tendsto' (tendsto_dotProduct tendsto_const_nhds (tendsto_matrix_mulVec hS tendsto_const_nhds)) fun m => ?_
    exact (h m).posSemidef.dotProduct_mulVec_nonneg v
  exact (Matrix.PosSemidef.posDef_iff_isUnit hpsd).2 ((Matrix.isUnit_iff_isUnit_det _).2 (isUnit_iff_ne_zero.2 (by linarith)))

/-- what is supposed of the two panels -/
structure Panel.InBounds (W : ℕ) (A M p0 g0 : ℝ) (P : Panel ℕ n K) : Prop where
  ok : P.Ok
  len : P.len = W + 1
  mean : ∀ t k, P.mean t k = 0
  cov : ∀ t ≤ W, ∀ k i j, |P.cov t k i j| ≤ A
  det : ∀ t ≤ W, ∀ k, p0 ≤ (P.cov t k).det
  ret : ∀ t ≤ W, ∀ i, |P.ret t i| ≤ M
  gram : g0 ≤ (P.gram W W).det

theorem blend_uniform (hK : 0 < K) (W : ℕ) {A M p0 g0 : ℝ} (hp0 : 0 < p0) (hg0 : 0 < g0) {e : ℝ} (he : 0 < e) :
    ∃ δ, 0 < δ ∧ ∀ P Q : Panel ℕ n K, P.InBounds W A M p0 g0 → Q.InBounds W A M p0 g0 →
      (∀ t ≤ W, ∀ k i j, |Q.cov t k i j - P.cov t k i j| ≤ δ) → (∀ t ≤ W, 0 < t → Q.ret t = P.ret t) →
      ∀ w w', P.Optimal W W w → Q.Optimal W W w' → ∀ i j, |blendCov (Q.cov W) w' i j - blendCov (P.cov W) w i j| < e := by
  by_contra hcon
  push Not at hcon
  choose P Q hP hQ hcov hret w w' hw hw' i j hbad using fun m : ℕ => hcon (1 / ((m : ℝ) + 1)) Nat.one_div_pos_of_nat
  have hcomp : IsCompact ((Set.univ.pi fun _ : Fin (W + 1) => Set.univ.pi fun _ : Fin K => Set.univ.pi fun _ : Fin n => Set.univ.pi fun _ : Fin n =>
      Set.Icc (-A) A) ×ˢ (Set.univ.pi fun _ : Fin (W + 1) => Set.univ.pi fun _ : Fin n => Set.Icc (-M) M)) :=
    (isCompact_univ_pi fun _ => isCompact_univ_pi fun _ => isCompact_univ_pi fun _ => isCompact_univ_pi fun _ => isCompact_Icc).prod
      (isCompact_univ_pi fun _ => isCompact_univ_pi fun _ => isCompact_Icc)
  obtain ⟨⟨C0, R0⟩, -, φ, hφ, hlim⟩ := hcomp.tendsto_subseq
    (x := fun m => ((fun (t : Fin (W + 1)) k a b => (P m).cov t k a b), fun (t : Fin (W + 1)) a => (P m).ret t a))
    fun m => Set.mem_prod.2 ⟨fun t _ k _ a _ b _ => abs_le.1 ((hP m).cov t (by omega) k a b), fun t _ a _ => abs_le.1 ((hP m).ret t (by omega) a)⟩
  have hlim1 := (continuous_fst.tendsto _).comp hlim
  have hlim2 := (continuous_snd.tendsto _).comp hlim
  have lc : ∀ t (h : t < W + 1) k, Tendsto (fun m => (P (φ m)).cov t k) atTop (nhds (Matrix.of (C0 ⟨t, h⟩ k))) := fun t h k =>
    tendsto_matrix_iff.2 fun a b =>
      tendsto_pi_nhds.1 (tendsto_pi_nhds.1 (tendsto_pi_nhds.1 (tendsto_pi_nhds.1 hlim1 ⟨t, h⟩) k) a) b
  have lr : ∀ t (h : t < W + 1), Tendsto (fun m => (P (φ m)).ret t) atTop (nhds (R0 ⟨t, h⟩)) := fun t h =>
    tendsto_pi_nhds.1 hlim2 ⟨t, h⟩
  have h0 : Tendsto (fun m : ℕ => 1 / ((φ m : ℝ) + 1)) atTop (nhds 0) := tendsto_one_div_add_atTop_nhds_zero_nat.comp hφ.tendsto_atTop
  have lq : ∀ t (h : t < W + 1) k, Tendsto (fun m => (Q (φ m)).cov t k) atTop (nhds (Matrix.of (C0 ⟨t, h⟩ k))) := fun t h k =>
    tendsto_matrix_iff.2 fun a b => by
      have h1 : Tendsto (fun m => (Q (φ m)).cov t k a b - (P (φ m)).cov t k a b) atTop (nhds 0) :=
        squeeze_zero_norm (fun m => hcov (φ m) t (by omega) k a b) h0
      simpa using h1.add (tendsto_matrix_iff.1 (lc t h k) a b)
  let L : Panel ℕ n K :=
    { len := W + 1, time := id, cov := fun t k => if h : t < W + 1 then Matrix.of (C0 ⟨t, h⟩ k) else 1, mean := fun _ _ => 0,
      ret := fun t => if h : t < W + 1 then R0 ⟨t, h⟩ else 0 }
  have hLok : L.Ok := by
    refine ⟨fun s t h _ => h, fun t ht k => ?_⟩
    have ht : t < W + 1 := ht
    show Matrix.PosDef (if h : t < W + 1 then Matrix.of (C0 ⟨t, h⟩ k) else 1)
    rw [dif_pos ht]
    exact posDef_limit (fun m => (hP (φ m)).ok.posDef t (by rw [(hP (φ m)).len]; exact ht) k) (lc t ht k) hp0 fun m => (hP (φ m)).det t (by omega) k
  have tP : Panel.Tends (fun m => P (φ m)) L := by
    refine ⟨hLok, fun m => (hP _).ok, fun m => (hP _).len, fun t ht k => ?_, fun t ht k => ?_, fun t ht _ => ?_⟩
    · have ht : t < W + 1 := ht
      show Tendsto _ _ (nhds (if h : t < W + 1 then Matrix.of (C0 ⟨t, h⟩ k) else 1))
      rw [dif_pos ht]
      exact lc t ht k
    · simp only [(hP _).mean]
      exact tendsto_const_nhds
    · have ht : t < W + 1 := ht
      show Tendsto _ _ (nhds (if h : t < W + 1 then R0 ⟨t, h⟩ else 0))
      rw [dif_pos ht]
      exact lr t ht
  have tQ : Panel.Tends (fun m => Q (φ m)) L := by
    refine ⟨hLok, fun m => (hQ _).ok, fun m => (hQ _).len, fun t ht k => ?_, fun t ht k => ?_, fun t ht h1 => ?_⟩
    · have ht : t < W + 1 := ht
      show Tendsto _ _ (nhds (if h : t < W + 1 then Matrix.of (C0 ⟨t, h⟩ k) else 1))
      rw [dif_pos ht]
      exact lq t ht k
    · simp only [(hQ _).mean]
      exact tendsto_const_nhds
    · have ht : t < W + 1 := ht
      show Tendsto _ _ (nhds (if h : t < W + 1 then R0 ⟨t, h⟩ else 0))
      rw [dif_pos ht]
      exact (lr t ht).congr fun m => (hret (φ m) t (by omega) h1).symm
  have hW : W < L.len := Nat.lt_succ_self W
  have hgL : (L.gram W W).PosDef := by
    have hd : g0 ≤ (L.gram W W).det :=
      ge_of_tendsto' (((Continuous.matrix_det continuous_id).tendsto _).comp (gram_tendsto (W := W) tP hW)) fun m => (hP (φ m)).gram
    exact (Matrix.PosSemidef.posDef_iff_isUnit (gram_psd L W W)).2 ((Matrix.isUnit_iff_isUnit_det _).2 (isUnit_iff_ne_zero.2 (by linarith)))
  have lw := best_tendsto tP hK le_rfl hW hgL (d := fun _ => 0) tendsto_const_nhds (w := fun m => w (φ m)) (fun m => (hw _).1)
    fun m v hv => by rw [add_zero]; exact (hw _).2 v hv
  have lw' := best_tendsto tQ hK le_rfl hW hgL (d := fun _ => 0) tendsto_const_nhds (w := fun m => w' (φ m)) (fun m => (hw' _).1)
    fun m v hv => by rw [add_zero]; exact (hw' _).2 v hv
  have hs := (best_optimal hLok hK le_rfl hW hgL).1
  have bP := blendCov_tendsto (fun m k => (hP (φ m)).ok.posDef W (by rw [(hP (φ m)).len]; exact hW) k) (hLok.posDef W hW) (tP.cov W hW) lw hs
  have bQ := blendCov_tendsto (fun m k => (hQ (φ m)).ok.posDef W (by rw [(hQ (φ m)).len]; exact hW) k) (hLok.posDef W hW) (tQ.cov W hW) lw' hs
  have hev : ∀ᶠ m in atTop, ∀ a b, |blendCov ((Q (φ m)).cov W) (w' (φ m)) a b - blendCov ((P (φ m)).cov W) (w (φ m)) a b| < e := by
    refine eventually_all.2 fun a => eventually_all.2 fun b => ?_
    have h1 := ((tendsto_matrix_iff.1 bQ a b).sub (tendsto_matrix_iff.1 bP a b)).abs
    rw [sub_self, abs_zero] at h1
    exact h1.eventually (gt_mem_nhds he)
  obtain ⟨m, hm⟩ := hev.exists
  exact absurd (hm (i (φ m)) (j (φ m))) (not_lt.2 (hbad (φ m)))

end CovPred
