import Verif.Props.Special
import Verif.Lemmas.Align
import Verif.Lemmas.FromSigmas

/-
When a covariance of `iterated_ewma` is positive definite.
-/
set_option linter.unusedSectionVars false
namespace CovPred
open XR

variable {τ : Type} {n : ℕ}

/-- the covariance of a result as a real matrix -/
noncomputable def realCov (r : IEWMA τ (Fin n) XR) : Mat n := Matrix.of fun i j => (r.covariance (i, j)).toReal

/-- all entries of the covariance are finite, and it is positive definite -/
structure GoodCov (r : IEWMA τ (Fin n) XR) : Prop where
  finite : ∀ p, ∃ v, r.covariance p = fin v
  posDef : (realCov r).PosDef

theorem covAt_quad_zero (a : RealArgs) (T : ℕ) (x : ℕ → Fin n → ℝ) (j : ℕ) (u : Fin n → ℝ) :
    ∑ i, ∑ k, u i * u k * covAt a T x j (i, k) = 0 ↔ ∀ k ≤ j, ∑ i, u i * zAt a T x k i = 0 := by
  rw [covAt_quad, halflifeAverage_eq, emaAvg_eq_zero_iff (betaOf_pos _) fun _ _ => sq_nonneg _]
  simp

theorem sigmaAt_symm (a : RealArgs) (T : ℕ) (x : ℕ → Fin n → ℝ) (j : ℕ) (i k : Fin n) :
    sigmaAt a T x j (i, k) = sigmaAt a T x j (k, i) := by
  unfold sigmaAt
  have h : covAt a T x j (i, k) = covAt a T x j (k, i) := by
    unfold covAt; congr 1; funext l; exact _root_.mul_comm _ _
  simp only [h, or_comm (a := covAt a T x j (i, i) = 0)]
  split
  · rfl
  · congr 1; ring

theorem realCov_symm (a : RealArgs) (T : ℕ) (tm : ℕ → τ) (x : ℕ → Fin n → ℝ) (j : ℕ) :
    (realCov (itemAt a T tm x j)).transpose = realCov (itemAt a T tm x j) := by
  ext i k
  simp only [realCov, itemAt, Matrix.transpose_apply, Matrix.of_apply, Arr.get_ofFn]
  rw [sigmaAt_symm]

/-- The covariance of the `j`-th row that enters is finite and positive definite exactly if all volatilities are
non-zero and the adjusted (centred) returns of the rows up to it span the space. -/
theorem goodCov_iff (a : RealArgs) (T : ℕ) (tm : ℕ → τ) (x : ℕ → Fin n → ℝ) (j : ℕ) :
    GoodCov (itemAt a T tm x j) ↔
      (∀ i, vol a x ((live a T x).getD j 0) i ≠ 0) ∧
      ∀ u : Fin n → ℝ, (∀ k ≤ j, ∑ i, u i * zAt a T x k i = 0) → u = 0 := by
  have hent : (∀ i, covAt a T x j (i, i) ≠ 0) → ∀ i k, (itemAt a T tm x j).covariance (i, k)
      = fin (vol a x ((live a T x).getD j 0) i * vol a x ((live a T x).getD j 0) k *
        (covAt a T x j (i, k) / (Real.sqrt (covAt a T x j (i, i)) * Real.sqrt (covAt a T x j (k, k))))) := by
    intro h i k
    simp only [itemAt, Arr.get_ofFn, sigmaAt]
    rw [if_neg (by rw [not_or]; exact ⟨h i, h k⟩)]
  have hquad : (∀ i, covAt a T x j (i, i) ≠ 0) → ∀ w : Fin n → ℝ, w ⬝ᵥ (realCov (itemAt a T tm x j)).mulVec w
      = ∑ i, ∑ k, (w i * vol a x ((live a T x).getD j 0) i / Real.sqrt (covAt a T x j (i, i))) *
      (w k * vol a x ((live a T x).getD j 0) k / Real.sqrt (covAt a T x j (k, k))) * covAt a T x j (i, k) := by
    intro h w
    unfold dotProduct Matrix.mulVec dotProduct
    apply Finset.sum_congr rfl
    intro i _
    rw [Finset.mul_sum]
    apply Finset.sum_congr rfl
    intro k _
    simp only [realCov, Matrix.of_apply]
    rw [hent h, XR.toReal]
    ring
  have hsq : ∀ i, covAt a T x j (i, i) ≠ 0 → Real.sqrt (covAt a T x j (i, i)) ≠ 0 := fun i h e =>
    h ((Real.sqrt_eq_zero (covAt_self_nonneg a T x j i)).mp e)
  constructor
  · intro h
    have hc : ∀ i, covAt a T x j (i, i) ≠ 0 := by
      intro i h0
      obtain ⟨v, hv⟩ := h.finite (i, i)
      simp only [itemAt, Arr.get_ofFn, sigmaAt] at hv
      rw [if_pos (Or.inl h0)] at hv
      cases hv
    have hvol : ∀ i, vol a x ((live a T x).getD j 0) i ≠ 0 := by
      intro i h0
      have := h.posDef.diag_pos (i := i)
      simp only [realCov, Matrix.of_apply] at this
      rw [hent hc, h0, XR.toReal] at this
      simp at this
    refine ⟨hvol, fun u hu => ?_⟩
    by_contra hne
    let w : Fin n → ℝ := fun i => u i * Real.sqrt (covAt a T x j (i, i)) / vol a x ((live a T x).getD j 0) i
    have hw : w ≠ 0 := by
      intro h0
      apply hne
      funext i
      have := congrFun h0 i
      simp only [w, Pi.zero_apply, div_eq_zero_iff, mul_eq_zero, hvol i, hsq i (hc i), or_false] at this
      exact this
    have hpos := h.posDef.dotProduct_mulVec_pos hw
    rw [star_trivial, hquad hc] at hpos
    have e : ∀ i, w i * vol a x ((live a T x).getD j 0) i / Real.sqrt (covAt a T x j (i, i)) = u i := by
      intro i
      have h1 := hvol i
      have h2 := hsq i (hc i)
      simp only [w]
      field_simp
    simp only [e] at hpos
    rw [(covAt_quad_zero a T x j u).mpr hu] at hpos
    exact lt_irrefl _ hpos
  · rintro ⟨hvol, hspan⟩
    have hc : ∀ i, covAt a T x j (i, i) ≠ 0 := by
      intro i h0
      rw [covAt_zero_iff] at h0
      have := hspan (Pi.single i 1) (fun k hk => by
        rw [Finset.sum_eq_single i]
        · rw [h0 k hk, mul_zero]
        · intro b _ hb; rw [Pi.single_eq_of_ne hb, zero_mul]
        · simp)
      have := congrFun this i
      simp at this
    refine ⟨fun p => ⟨_, hent hc p.1 p.2⟩, ?_⟩
    refine Matrix.PosDef.of_dotProduct_mulVec_pos ?_ fun w hw => ?_
    · rw [Matrix.IsHermitian, Matrix.conjTranspose_eq_transpose_of_trivial]; exact realCov_symm a T tm x j
    · rw [star_trivial, hquad hc]
      refine lt_of_le_of_ne (covAt_quad_nonneg a T x j _) (Ne.symm ?_)
      intro h0
      have h1 := hspan _ ((covAt_quad_zero a T x j _).mp h0)
      apply hw
      funext i
      have := congrFun h1 i
      simp only [Pi.zero_apply, div_eq_zero_iff, mul_eq_zero, hvol i, hsq i (hc i), or_false] at this
      exact this

/-- In mean mode the first adjusted return is centred to zero. -/
theorem zAt_first {a : RealArgs} (hm : a.mean = true) (T : ℕ) (x : ℕ → Fin n → ℝ) (i : Fin n) : zAt a T x 0 i = 0 := by
  unfold zAt muOf
  rw [if_pos hm]
  simp [halflifeAverage]

/-- A positive definite covariance needs as many rows as there are assets (one more in mean mode). -/
theorem goodCov_rank {a : RealArgs} {T : ℕ} {tm : ℕ → τ} {x : ℕ → Fin n → ℝ} {j : ℕ} (h : GoodCov (itemAt a T tm x j)) :
    n ≤ j + 1 ∧ (a.mean = true → n ≤ j) := by
  have hspan := ((goodCov_iff a T tm x j).mp h).2
  have key : ∀ m s, (∀ k ≤ j, (∃ l : Fin m, k = l.1 + s) ∨ ∀ i, zAt a T x k i = 0) → n ≤ m := by
    intro m s hk
    by_contra hlt
    push Not at hlt
    let F : (Fin n → ℝ) →ₗ[ℝ] (Fin m → ℝ) :=
      LinearMap.pi fun l => ∑ i, (zAt a T x (l.1 + s) i) • LinearMap.proj i
    have hker : LinearMap.ker F ≠ ⊥ := LinearMap.ker_ne_bot_of_finrank_lt (by simpa using hlt)
    obtain ⟨u, hu, hne⟩ := (Submodule.ne_bot_iff _).mp hker
    apply hne
    apply hspan
    intro k hkj
    rcases hk k hkj with ⟨l, rfl⟩ | hz
    · have := congrFun (LinearMap.mem_ker.mp hu) l
      simp only [F, LinearMap.pi_apply, LinearMap.sum_apply, LinearMap.smul_apply, LinearMap.proj_apply, smul_eq_mul,
        Pi.zero_apply] at this
      rw [← this]
      apply Finset.sum_congr rfl
      intro i _
      exact _root_.mul_comm _ _
    · simp [hz]
  refine ⟨key (j + 1) 0 fun k hk => Or.inl ⟨⟨k, by omega⟩, rfl⟩, fun hm => key j 1 fun k hk => ?_⟩
  cases k with
  | zero => exact Or.inr (zAt_first hm T x)
  | succ k => exact Or.inl ⟨⟨k, by omega⟩, rfl⟩

end CovPred
