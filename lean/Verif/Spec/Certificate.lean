import Verif.Spec.Combination

/-
The marginal score of an expert: how much the window log-likelihood of a mixture grows per unit of weight moved to it.
Written without reference to the model of the code.
-/
namespace CovPred
open Matrix

variable {τ : Type} {n K : ℕ}

/-- The return `x` standardised by the blend with weights `w`: `Lᵀ (x - m)`. -/
noncomputable def blendScore (S : Fin K → Mat n) (mu : Fin K → Vec n) (w : Vec K) (x : Vec n) : Vec n :=
  (blendFactor S w)ᵀ *ᵥ (x - blendMean S mu w)

/-- The marginal score of expert `k` at weights `w`: over the window, the ratios of its diagonal precision entries to
those of the blend, minus the inner product of its standardised returns and those of the blend. -/
noncomputable def Panel.marginal (P : Panel τ n K) (W t : ℕ) (w : Vec K) (k : Fin K) : ℝ :=
  ∑ s ∈ Finset.Ioc (t - W) t,
    (∑ i, precFactor (P.cov (s - 1) k) i i / blendFactor (P.cov (s - 1)) w i i
      - ((precFactor (P.cov (s - 1) k))ᵀ *ᵥ (P.ret s - P.mean (s - 1) k))
        ⬝ᵥ blendScore (P.cov (s - 1)) (P.mean (s - 1)) w (P.ret s))

/-- The average marginal score at weights `w`. -/
noncomputable def Panel.average (P : Panel τ n K) (W t : ℕ) (w : Vec K) : ℝ := ∑ k, w k * P.marginal W t w k

end CovPred
