import Verif.Lemmas.Equiv
import Verif.Props.Examples

/-
Equivariance of `iterated_ewma` on arbitrary data, also with `nan` and infinite entries (C08, C09).
-/
set_option linter.unusedSectionVars false
namespace CovPred
open XR

variable {τ ι κ : Type} [DecidableEq τ] [Ix ι] [Ix κ]

/-! ### C08: scale equivariance -/

/-- Multiplying the returns of each asset `i` by `c i ≠ 0` multiplies mean, covariance and volatility by `c i`,
`c i * c j` and `|c i|`; times and exceptions stay the same. -/
theorem C08_scale (f : Frame τ ι XR) (a : IewmaArgs XR) (c : ι → ℝ) (hc : ∀ i, c i ≠ 0) :
    iteratedEwma (f.map fun p => (p.1, Arr.ofFn fun i => fin (c i) * p.2 i)) a =
      (iteratedEwma f a).map (List.map fun r =>
        { time := r.time
          mean := Arr.ofFn fun i => fin (c i) * r.mean i
          covariance := Arr.ofFn fun p => fin (c p.1 * c p.2) * r.covariance p
          volatility := Arr.ofFn fun i => fin |c i| * r.volatility i }) :=
  iteratedEwma_xf hc (e := id) Function.surjective_id f a

example : ∃ (c : Fin 2 → ℝ) (rs : List _), (∀ i, c i ≠ 0) ∧ c 0 = -3 ∧ iteratedEwma Ex.frame Ex.args.toArgs = .ok rs ∧
    rs.length = 2 :=
  ⟨fun _ => -3, _, fun _ => by norm_num, rfl, Ex.run, rfl⟩

/-! ### C09: the order of the assets -/

/-- Rearranging the columns (new column `k` is old column `σ k`) rearranges every result in the same way. -/
theorem C09_permutation (f : Frame τ ι XR) (a : IewmaArgs XR) (σ : κ ≃ ι) :
    iteratedEwma (f.map fun p => (p.1, Arr.ofFn fun k => p.2 (σ k))) a =
      (iteratedEwma f a).map (List.map fun r =>
        { time := r.time
          mean := Arr.ofFn fun k => r.mean (σ k)
          covariance := Arr.ofFn fun p => r.covariance (σ p.1, σ p.2)
          volatility := Arr.ofFn fun k => r.volatility (σ k) }) := by
  have := iteratedEwma_xf (c := fun _ : κ => 1) (fun _ => one_ne_zero) σ.surjective f a
  have hi : xfItem (τ := τ) (fun _ : κ => 1) σ = fun r =>
      { time := r.time
        mean := Arr.ofFn fun k => r.mean (σ k)
        covariance := Arr.ofFn fun p => r.covariance (σ p.1, σ p.2)
        volatility := Arr.ofFn fun k => r.volatility (σ k) } := by
    funext r
    simp only [xf, xfItem, fin_one_mul, mul_one, abs_one]
  rw [hi] at this
  simpa only [xfF, xf, fin_one_mul] using this

/-- The same for a rearrangement that repeats columns: a duplicated asset gets duplicated results, and the
results for the other assets are not affected. -/
theorem C09_duplicates (f : Frame τ ι XR) (a : IewmaArgs XR) (σ : κ → ι) (hσ : Function.Surjective σ) :
    iteratedEwma (f.map fun p => (p.1, Arr.ofFn fun k => p.2 (σ k))) a =
      (iteratedEwma f a).map (List.map fun r =>
        { time := r.time
          mean := Arr.ofFn fun k => r.mean (σ k)
          covariance := Arr.ofFn fun p => r.covariance (σ p.1, σ p.2)
          volatility := Arr.ofFn fun k => r.volatility (σ k) }) := by
  have := iteratedEwma_xf (c := fun _ : κ => 1) (fun _ => one_ne_zero) hσ f a
  have hi : xfItem (τ := τ) (fun _ : κ => 1) σ = fun r =>
      { time := r.time
        mean := Arr.ofFn fun k => r.mean (σ k)
        covariance := Arr.ofFn fun p => r.covariance (σ p.1, σ p.2)
        volatility := Arr.ofFn fun k => r.volatility (σ k) } := by
    funext r
    simp only [xf, xfItem, fin_one_mul, mul_one, abs_one]
  rw [hi] at this
  simpa only [xfF, xf, fin_one_mul] using this

example : ∃ (σ : Fin 2 ≃ Fin 2) (rs : List _), σ 0 = 1 ∧ iteratedEwma Ex.frame Ex.args.toArgs = .ok rs ∧
    rs.length = 2 := ⟨Equiv.swap 0 1, _, by decide, Ex.run, rfl⟩

example : ∃ σ : Fin 3 → Fin 2, Function.Surjective σ := ⟨fun k => if k = 0 then 0 else 1, by
  intro i; fin_cases i
  · exact ⟨0, rfl⟩
  · exact ⟨1, rfl⟩⟩

end CovPred
