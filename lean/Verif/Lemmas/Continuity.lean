import Verif.Props.Certificate
import Mathlib.Topology.Sequences
import Mathlib.Analysis.Matrix.Order
import Mathlib.Analysis.Convex.StdSimplex
import Mathlib.Topology.Algebra.Order.LiminfLimsup
import Mathlib.Analysis.SpecialFunctions.Log.Basic

/-
Limits of Cholesky factors, blends, likelihoods and optimal weights.
-/
set_option linter.unusedSectionVars false
namespace CovPred
open Matrix Filter

variable {τ : Type} [LinearOrder τ] {n K : ℕ}

theorem tendsto_matrix_inv {X : Type} {l : Filter X} {A : X → Mat n} {B : Mat n} (hA : Tendsto A l (nhds B)) (hd : B.det ≠ 0) :
    Tendsto (fun x => (A x)⁻¹) l (nhds B⁻¹) := by
  have h1 : Tendsto (fun x => (A x).det) l (nhds B.det) := ((Continuous.matrix_det continuous_id).tendsto B).comp hA
  have h2 : Tendsto (fun x => (A x).adjugate) l (nhds B.adjugate) := ((Continuous.matrix_adjugate continuous_id).tendsto B).comp hA
  have h3 := (h1.inv₀ hd).smul h2
  simp only [Matrix.inv_def, Ring.inverse_eq_inv']
  exact h3

theorem tendsto_matrix_mul {X : Type} {l : Filter X} {p q r : ℕ} {A : X → Matrix (Fin p) (Fin q) ℝ} {B : X → Matrix (Fin q) (Fin r) ℝ}
    {A0 : Matrix (Fin p) (Fin q) ℝ} {B0 : Matrix (Fin q) (Fin r) ℝ} (hA : Tendsto A l (nhds A0)) (hB : Tendsto B l (nhds B0)) :
    Tendsto (fun x => A x * B x) l (nhds (A0 * B0)) := by
  have : Continuous fun p : Matrix (Fin p) (Fin q) ℝ × Matrix (Fin q) (Fin r) ℝ => p.1 * p.2 := continuous_fst.matrix_mul continuous_snd
  exact (this.tendsto (A0, B0)).comp (hA.prodMk_nhds hB)

theorem tendsto_matrix_transpose {X : Type} {l : Filter X} {p q : ℕ} {A : X → Matrix (Fin p) (Fin q) ℝ} {A0 : Matrix (Fin p) (Fin q) ℝ}
    (hA : Tendsto A l (nhds A0)) : Tendsto (fun x => (A x)ᵀ) l (nhds A0ᵀ) :=
  ((Continuous.matrix_transpose continuous_id).tendsto A0).comp hA

theorem tendsto_matrix_mulVec {X : Type} {l : Filter X} {p q : ℕ} {A : X → Matrix (Fin p) (Fin q) ℝ} {v : X → Vec q}
    {A0 : Matrix (Fin p) (Fin q) ℝ} {v0 : Vec q} (hA : Tendsto A l (nhds A0)) (hv : Tendsto v l (nhds v0)) :
    Tendsto (fun x => A x *ᵥ v x) l (nhds (A0 *ᵥ v0)) := by
  have : Continuous fun p : Matrix (Fin p) (Fin q) ℝ × Vec q => p.1 *ᵥ p.2 := continuous_fst.matrix_mulVec continuous_snd
  exact (this.tendsto (A0, v0)).comp (hA.prodMk_nhds hv)

theorem tendsto_dotProduct {X : Type} {l : Filter X} {q : ℕ} {u v : X → Vec q} {u0 v0 : Vec q} (hu : Tendsto u l (nhds u0))
    (hv : Tendsto v l (nhds v0)) : Tendsto (fun x => u x ⬝ᵥ v x) l (nhds (u0 ⬝ᵥ v0)) := by
  have : Continuous fun p : Vec q × Vec q => p.1 ⬝ᵥ p.2 := continuous_fst.dotProduct continuous_snd
  exact (this.tendsto (u0, v0)).comp (hu.prodMk_nhds hv)

theorem tendsto_matrix_iff {X : Type} {l : Filter X} {p q : ℕ} {A : X → Matrix (Fin p) (Fin q) ℝ} {A0 : Matrix (Fin p) (Fin q) ℝ} :
    Tendsto A l (nhds A0) ↔ ∀ i j, Tendsto (fun x => A x i j) l (nhds (A0 i j)) := by
  constructor
  · intro h i j
    exact ((Continuous.matrix_elem continuous_id i j).tendsto A0).comp h
  · intro h
    exact tendsto_pi_nhds.2 fun i => tendsto_pi_nhds.2 fun j => h i j

/-- Cholesky factors depend continuously on the matrix. -/
theorem chol_tendsto {L M : ℕ → Mat n} {L0 M0 : Mat n} (h : ∀ m, IsChol (L m) (M m)) (h0 : IsChol L0 M0) (hM : Tendsto M atTop (nhds M0)) :
    Tendsto L atTop (nhds L0) := by
  -- the factors are bounded
  have hbound : ∃ C : ℝ, ∀ m i j, |L m i j| ≤ C := by
    have h1 : ∀ i : Fin n, ∃ C : ℝ, ∀ m, M m i i ≤ C := fun i => by
      obtain ⟨C, hC⟩ := ((tendsto_matrix_iff.1 hM) i i).bddAbove_range
      exact ⟨C, fun m => hC ⟨m, rfl⟩⟩
    choose C hC using h1
    refine ⟨1 + ∑ i, |C i|, fun m i j => ?_⟩
    have h2 : L m i j ^ 2 ≤ M m i i := by
      rw [← (h m).eq, Matrix.mul_apply]
      have := Finset.single_le_sum (f := fun j => L m i j * (L m)ᵀ j i) (fun j _ => by
        rw [Matrix.transpose_apply]; exact mul_self_nonneg _) (Finset.mem_univ j)
      rw [Matrix.transpose_apply, ← pow_two] at this
      exact this
    have h3 : |C i| ≤ ∑ i, |C i| := Finset.single_le_sum (f := fun i => |C i|) (fun i _ => abs_nonneg _) (Finset.mem_univ i)
    have h4 : L m i j ^ 2 ≤ ∑ i, |C i| := (h2.trans (hC i m)).trans ((le_abs_self _).trans h3)
    set S := ∑ i, |C i|
    have hS : 0 ≤ S := le_trans (sq_nonneg _) h4
    refine abs_le_of_sq_le_sq ?_ (by linarith)
    nlinarith
  obtain ⟨C, hC⟩ := hbound
  refine tendsto_of_subseq_tendsto fun ns hns => ?_
  have hcomp : IsCompact (X := Fin n → Fin n → ℝ) (Set.univ.pi fun _ : Fin n => Set.univ.pi fun _ : Fin n => Set.Icc (-C) C) :=
    isCompact_univ_pi fun _ => isCompact_univ_pi fun _ => isCompact_Icc
  obtain ⟨A, -, φ, hφ, hA⟩ := IsCompact.tendsto_subseq (X := Fin n → Fin n → ℝ) hcomp (x := fun m i j => L (ns m) i j) fun m i _ j _ => abs_le.1 (hC (ns m) i j)
  refine ⟨φ, ?_⟩
  have hA' : Tendsto (fun m => L (ns (φ m))) atTop (nhds (Matrix.of A)) := hA
  have hMs : Tendsto (fun m => M (ns (φ m))) atTop (nhds M0) := hM.comp (hns.comp hφ.tendsto_atTop)
  have hLL := tendsto_matrix_mul hA' (tendsto_matrix_transpose hA')
  have heq : Matrix.of A * (Matrix.of A)ᵀ = M0 := by
    refine tendsto_nhds_unique hLL ?_
    simpa only [(h _).eq] using hMs
  have hlow : LowerTri (Matrix.of A) := fun i j hij => by
    refine tendsto_nhds_unique (tendsto_matrix_iff.1 hA' i j) ?_
    have : (fun m => L (ns (φ m)) i j) = fun _ => 0 := by funext m; exact (h _).lower i j hij
    rw [this]
    exact tendsto_const_nhds
  have hnn : ∀ i, 0 ≤ Matrix.of A i i := fun i => ge_of_tendsto' (tendsto_matrix_iff.1 hA' i i) fun m => ((h _).pos i).le
  have hdet : (Matrix.of A).det ≠ 0 := by
    have hM0 : M0.det ≠ 0 := by rw [← h0.eq, Matrix.det_mul, Matrix.det_transpose]; exact mul_ne_zero h0.det_pos.ne' h0.det_pos.ne'
    intro hz
    rw [← heq, Matrix.det_mul, hz, zero_mul] at hM0
    exact hM0 rfl
  have hchol : IsChol (Matrix.of A) M0 := ⟨hlow, fun i => lt_of_le_of_ne (hnn i) fun hi => hdet (by
    rw [hlow.det]; exact Finset.prod_eq_zero (Finset.mem_univ i) hi.symm), heq⟩
  rw [← hchol.unique h0]
  exact hA'

theorem precFactor_tendsto {S : ℕ → Mat n} {S0 : Mat n} (h : ∀ m, (S m).PosDef) (h0 : S0.PosDef) (hS : Tendsto S atTop (nhds S0)) :
    Tendsto (fun m => precFactor (S m)) atTop (nhds (precFactor S0)) :=
  chol_tendsto (fun m => precFactor_isChol (h m)) (precFactor_isChol h0) (tendsto_matrix_inv hS h0.det_pos.ne')

theorem blendFactor_tendsto {S : ℕ → Fin K → Mat n} {S0 : Fin K → Mat n} (h : ∀ m k, (S m k).PosDef) (h0 : ∀ k, (S0 k).PosDef)
    (hS : ∀ k, Tendsto (fun m => S m k) atTop (nhds (S0 k))) {w : ℕ → Vec K} {w0 : Vec K} (hw : Tendsto w atTop (nhds w0)) :
    Tendsto (fun m => blendFactor (S m) (w m)) atTop (nhds (blendFactor S0 w0)) :=
  tendsto_finsetSum _ fun k _ => ((tendsto_pi_nhds.1 hw) k).smul (precFactor_tendsto (fun m => h m k) (h0 k) (hS k))

theorem blendCov_tendsto {S : ℕ → Fin K → Mat n} {S0 : Fin K → Mat n} (h : ∀ m k, (S m k).PosDef) (h0 : ∀ k, (S0 k).PosDef)
    (hS : ∀ k, Tendsto (fun m => S m k) atTop (nhds (S0 k))) {w : ℕ → Vec K} {w0 : Vec K} (hw : Tendsto w atTop (nhds w0)) (hw0 : Simplex w0) :
    Tendsto (fun m => blendCov (S m) (w m)) atTop (nhds (blendCov S0 w0)) := by
  have hF := blendFactor_tendsto h h0 hS hw
  have hd := det_ne_of_tri (blendFactor_lower h0 w0) (blendFactor_pos h0 hw0)
  exact tendsto_matrix_inv (tendsto_matrix_mul hF (tendsto_matrix_transpose hF)) (by rw [Matrix.det_mul, Matrix.det_transpose]; exact mul_ne_zero hd hd)

theorem blendMean_tendsto {S : ℕ → Fin K → Mat n} {S0 : Fin K → Mat n} (h : ∀ m k, (S m k).PosDef) (h0 : ∀ k, (S0 k).PosDef)
    (hS : ∀ k, Tendsto (fun m => S m k) atTop (nhds (S0 k))) {mu : ℕ → Fin K → Vec n} {mu0 : Fin K → Vec n}
    (hmu : ∀ k, Tendsto (fun m => mu m k) atTop (nhds (mu0 k))) {w : ℕ → Vec K} {w0 : Vec K} (hw : Tendsto w atTop (nhds w0)) (hw0 : Simplex w0) :
    Tendsto (fun m => blendMean (S m) (mu m) (w m)) atTop (nhds (blendMean S0 mu0 w0)) := by
  have hF := blendFactor_tendsto h h0 hS hw
  have hd := det_ne_of_tri (blendFactor_lower h0 w0) (blendFactor_pos h0 hw0)
  refine tendsto_matrix_mulVec (tendsto_matrix_inv (tendsto_matrix_transpose hF) (by rw [Matrix.det_transpose]; exact hd)) ?_
  exact tendsto_finsetSum _ fun k _ => ((tendsto_pi_nhds.1 hw) k).smul
    (tendsto_matrix_mulVec (tendsto_matrix_transpose (precFactor_tendsto (fun m => h m k) (h0 k) (hS k))) (hmu k))

theorem gaussLogDensity_tendsto {mu : ℕ → Vec n} {S : ℕ → Mat n} {x : ℕ → Vec n} {mu0 : Vec n} {S0 : Mat n} {x0 : Vec n}
    (hmu : Tendsto mu atTop (nhds mu0)) (hS : Tendsto S atTop (nhds S0)) (hx : Tendsto x atTop (nhds x0)) (hd : S0.det ≠ 0) :
    Tendsto (fun m => gaussLogDensity (mu m) (S m) (x m)) atTop (nhds (gaussLogDensity mu0 S0 x0)) := by
  have h1 : Tendsto (fun m => Real.log (S m).det) atTop (nhds (Real.log S0.det)) :=
    (((Continuous.matrix_det continuous_id).tendsto S0).comp hS).log hd
  have h2 := hx.sub hmu
  exact (tendsto_const_nhds.sub (h1.const_mul _)).sub ((tendsto_dotProduct h2 (tendsto_matrix_mulVec (tendsto_matrix_inv hS hd) h2)).const_mul _)

/-- the data of the panels `Q m` tend to those of `P` -/
structure Panel.Tends (Q : ℕ → Panel τ n K) (P : Panel τ n K) : Prop where
  okP : P.Ok
  ok : ∀ m, (Q m).Ok
  len : ∀ m, (Q m).len = P.len
  cov : ∀ t < P.len, ∀ k, Tendsto (fun m => (Q m).cov t k) atTop (nhds (P.cov t k))
  mean : ∀ t < P.len, ∀ k, Tendsto (fun m => (Q m).mean t k) atTop (nhds (P.mean t k))
  ret : ∀ t < P.len, 0 < t → Tendsto (fun m => (Q m).ret t) atTop (nhds (P.ret t))

theorem Panel.Tends.sub {Q : ℕ → Panel τ n K} {P : Panel τ n K} (h : Panel.Tends Q P) {ns : ℕ → ℕ} (hns : Tendsto ns atTop atTop) :
    Panel.Tends (fun m => Q (ns m)) P :=
  ⟨h.okP, fun m => h.ok _, fun m => h.len _, fun t ht k => (h.cov t ht k).comp hns, fun t ht k => (h.mean t ht k).comp hns,
    fun t ht h0 => (h.ret t ht h0).comp hns⟩

theorem Panel.Tends.pd {Q : ℕ → Panel τ n K} {P : Panel τ n K} (h : Panel.Tends Q P) {t : ℕ} (ht : t < P.len) (m : ℕ) (k : Fin K) :
    ((Q m).cov t k).PosDef := (h.ok m).posDef t (by rw [h.len]; exact ht) k

theorem gram_tendsto {Q : ℕ → Panel τ n K} {P : Panel τ n K} (h : Panel.Tends Q P) {W t : ℕ} (ht : t < P.len) :
    Tendsto (fun m => (Q m).gram W t) atTop (nhds (P.gram W t)) := by
  refine tendsto_finsetSum _ fun s hs => ?_
  have hs := Finset.mem_Ioc.1 hs
  have hsc : Tendsto (fun m => (Q m).scores s) atTop (nhds (P.scores s)) := by
    rw [tendsto_matrix_iff]
    intro i k
    refine tendsto_pi_nhds.1 (tendsto_matrix_mulVec (tendsto_matrix_transpose (precFactor_tendsto (fun m => h.pd (t := s - 1) (by omega) m k)
      (h.okP.posDef (s - 1) (by omega) k) (h.cov (s - 1) (by omega) k))) ((h.ret s (by omega) (by omega)).sub (h.mean (s - 1) (by omega) k))) i
  exact tendsto_matrix_mul (tendsto_matrix_transpose hsc) hsc

theorem gram_psd (P : Panel τ n K) (W t : ℕ) : (P.gram W t).PosSemidef :=
  Matrix.posSemidef_sum _ fun s _ => by
    have := Matrix.posSemidef_conjTranspose_mul_self (P.scores s)
    rwa [Matrix.conjTranspose_eq_transpose_of_trivial] at this

theorem gram_eventually {Q : ℕ → Panel τ n K} {P : Panel τ n K} (h : Panel.Tends Q P) {W t : ℕ} (ht : t < P.len) (hg : (P.gram W t).PosDef) :
    ∀ᶠ m in atTop, ((Q m).gram W t).PosDef := by
  have hd : Tendsto (fun m => ((Q m).gram W t).det) atTop (nhds (P.gram W t).det) :=
    ((Continuous.matrix_det continuous_id).tendsto _).comp (gram_tendsto h ht)
  refine (hd.eventually_ne hg.det_pos.ne').mono fun m hm => ?_
  exact (Matrix.PosSemidef.posDef_iff_isUnit (gram_psd _ W t)).2 ((Matrix.isUnit_iff_isUnit_det _).2 (isUnit_iff_ne_zero.2 hm))

theorem logLik_tendsto {Q : ℕ → Panel τ n K} {P : Panel τ n K} (h : Panel.Tends Q P) {W t : ℕ} (ht : t < P.len) {w : ℕ → Vec K} {w0 : Vec K}
    (hw : Tendsto w atTop (nhds w0)) (hw0 : Simplex w0) : Tendsto (fun m => (Q m).logLik W t (w m)) atTop (nhds (P.logLik W t w0)) := by
  refine tendsto_finsetSum _ fun s hs => ?_
  have hs := Finset.mem_Ioc.1 hs
  have p0 := h.okP.posDef (s - 1) (by omega)
  have hd := det_ne_of_tri (blendFactor_lower p0 w0) (blendFactor_pos p0 hw0)
  have pm := fun m => h.pd (t := s - 1) (by omega) m
  refine gaussLogDensity_tendsto (blendMean_tendsto pm p0 (h.cov (s - 1) (by omega)) (h.mean (s - 1) (by omega)) hw hw0)
    (blendCov_tendsto pm p0 (h.cov (s - 1) (by omega)) hw hw0) (h.ret s (by omega) (by omega)) ?_
  unfold blendCov
  rw [Matrix.det_nonsing_inv, Ring.inverse_eq_inv', Matrix.det_mul, Matrix.det_transpose]
  exact inv_ne_zero (mul_ne_zero hd hd)

theorem simplex_compact : IsCompact {w : Vec K | Simplex w} := by
  have : {w : Vec K | Simplex w} = stdSimplex ℝ (Fin K) := by
    ext w
    exact ⟨fun h => ⟨h.nonneg, h.sum_one⟩, fun h => ⟨h.1, h.2⟩⟩
  rw [this]
  exact isCompact_stdSimplex _ _

/-- Almost optimal weights of nearby data are near the optimal weights. -/
theorem best_tendsto {Q : ℕ → Panel τ n K} {P : Panel τ n K} (h : Panel.Tends Q P) (hK : 0 < K) {W t : ℕ} (hWt : W ≤ t) (ht : t < P.len)
    (hg : (P.gram W t).PosDef) {d : ℕ → ℝ} (hd : Tendsto d atTop (nhds 0)) {w : ℕ → Vec K} (hwx : ∀ m, Simplex (w m))
    (hw : ∀ m w', Simplex w' → (Q m).logLik W t w' ≤ (Q m).logLik W t (w m) + d m) : Tendsto w atTop (nhds (P.best W t)) := by
  refine tendsto_of_subseq_tendsto fun ns hns => ?_
  obtain ⟨w0, hw0, φ, hφ, hlim⟩ := simplex_compact.tendsto_subseq (x := fun m => w (ns m)) fun m => hwx _
  refine ⟨φ, ?_⟩
  have hns' := hns.comp hφ.tendsto_atTop
  have hsub := h.sub hns'
  have hopt : P.Optimal W t w0 := ⟨hw0, fun w' hw' => by
    have h1 := (logLik_tendsto (W := W) hsub ht hlim hw0).add (hd.comp hns')
    rw [add_zero] at h1
    exact le_of_tendsto_of_tendsto' (logLik_tendsto hsub ht tendsto_const_nhds hw') h1 fun m => hw _ w' hw'⟩
  rw [← optimal_unique h.okP hWt ht hg hopt (best_optimal h.okP hK hWt ht hg)]
  exact hlim

end CovPred
