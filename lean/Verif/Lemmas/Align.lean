import Verif.Props.Iewma
import Verif.Lemmas.Combination

/-
Which rows `iterated_ewma` uses does not depend on the half-lives (unless the volatilities are all zero); rank of the
covariances it yields.
-/
set_option linter.unusedSectionVars false
namespace CovPred
open XR

variable {τ ι : Type} [DecidableEq τ] [Ix ι]

/-- In mean mode the centred returns vanish as long as the return does not change. -/
theorem cRet_flat {a : RealArgs} (ha : a.Valid) (hm : a.mean = true) (x : ℕ → ι → ℝ) (i : ι) (t : ℕ) :
    (∀ k ≤ t, cRet a x k i = 0) ↔ ∀ k ≤ t, x k i = x 0 i := by
  have hh : 0 < a.mu1h := orElse_pos ha.vola ha.mu1
  have h0 := betaOf_pos a.mu1h
  have h1 := betaOf_lt_one hh
  have hc : ∀ k, cRet a x k i = x k i - emaAvg (betaOf a.mu1h) (fun k => x k i) k := by
    intro k
    unfold cRet muOf
    rw [if_pos hm, halflifeAverage_eq]
  have hconst : ∀ k, (∀ l ≤ k, x l i = x 0 i) → emaAvg (betaOf a.mu1h) (fun k => x k i) k = x 0 i := by
    intro k hk
    rw [emaAvg_congr (y := fun _ => x 0 i) hk, emaAvg_const h0]
  induction t with
  | zero =>
    constructor
    · intro _ k hk; rw [Nat.le_zero.mp hk]
    · intro h k hk
      rw [hc, hconst k fun l hl => h l (by omega), h k hk]; ring
  | succ t ih =>
    constructor
    · intro h k hk
      have hflat := ih.mp fun k hk => h k (by omega)
      rcases Nat.lt_or_ge k (t + 1) with hlt | hge
      · exact hflat k (by omega)
      · have : k = t + 1 := by omega
        subst this
        have e := h (t + 1) le_rfl
        rw [hc, ← emaAvg_succ h0 h1, hconst t hflat] at e
        have hp := one_sub_pow_pos h0 h1 (t + 1)
        have hlt : betaOf a.mu1h ^ (t + 1 + 1) < betaOf a.mu1h := by
          have := pow_lt_one₀ h0.le h1 (n := t + 1) (by omega)
          calc betaOf a.mu1h ^ (t + 1 + 1) = betaOf a.mu1h ^ (t + 1) * betaOf a.mu1h := pow_succ _ _
            _ < 1 * betaOf a.mu1h := by apply mul_lt_mul_of_pos_right this h0
            _ = betaOf a.mu1h := one_mul _
        have e2 : (x (t + 1) i - x 0 i) * (betaOf a.mu1h - betaOf a.mu1h ^ (t + 1 + 1)) = 0 := by
          field_simp at e
          linarith
        rcases mul_eq_zero.mp e2 with h3 | h3
        · linarith
        · linarith
    · intro h k hk
      rw [hc, hconst k fun l hl => h l (by omega), h k hk]; ring

/-- Some asset moves while its volatility is not yet winsorised (or it never is). -/
def Started (a : RealArgs) (x : ℕ → ι → ℝ) : Prop :=
  a.mean = false ∨ a.clip = none ∨ ∃ i, ∃ k : ℕ, (k : Int) ≤ a.minPeriodsVola ∧ x k i ≠ x 0 i

/-- The rows used depend on the half-lives only if nothing moves at the start. -/
theorem live_congr {a b : RealArgs} (ha : a.Valid) (hb : b.Valid) (hm : a.mean = b.mean) (hc : a.clip = b.clip)
    (hv : a.minPeriodsVola = b.minPeriodsVola) {x : ℕ → ι → ℝ} (hs : Started a x) (T : ℕ) : live a T x = live b T x := by
  unfold live
  apply List.filter_congr
  intro t _
  rw [decide_eq_decide, hv]
  apply and_congr_right
  intro _
  cases hmean : a.mean with
  | false =>
    have e : ∀ k i, cRet a x k i = cRet b x k i := by
      intro k i
      unfold cRet muOf
      rw [hmean, ← hm, hmean]
      simp
    simp only [volSq_zero_iff ha, volSq_zero_iff hb, e, hc, hv]
  | true =>
    have key : ∀ c : RealArgs, c.Valid → c.mean = true → Started c x →
        ((∃ i, ¬ (vol c x t i = 0 ∧ cRet c x t i = 0)) ↔ ∃ i, ∃ k ≤ t, x k i ≠ x 0 i) := by
      intro c hcv hcm hcs
      have one : ∀ i, (∀ k ≤ t, (c.clip = none ∨ (k : Int) ≤ c.minPeriodsVola ∨ k = 0)) →
          (¬ (vol c x t i = 0 ∧ cRet c x t i = 0) ↔ ∃ k ≤ t, x k i ≠ x 0 i) := by
        intro i hall
        rw [volSq_zero_iff hcv]
        have : (∀ k ≤ t, (c.clip = none ∨ (k : Int) ≤ c.minPeriodsVola ∨ k = 0) → cRet c x k i = 0) ↔
            ∀ k ≤ t, x k i = x 0 i := by
          rw [← cRet_flat hcv hcm]
          exact ⟨fun h k hk => h k hk (hall k hk), fun h k hk _ => h k hk⟩
        rw [this]
        constructor
        · intro h
          by_contra hno
          push Not at hno
          exact h ⟨hno, (cRet_flat hcv hcm x i t).mpr hno t le_rfl⟩
        · rintro ⟨k, hk, hne⟩ ⟨h, _⟩
          exact hne (h k hk)
      rcases hcs with h | h | ⟨i0, k0, hk0, hne0⟩
      · rw [hcm] at h; cases h
      · exact exists_congr fun i => one i fun k _ => Or.inl h
      · by_cases ht : (t : Int) ≤ c.minPeriodsVola
        · exact exists_congr fun i => one i fun k hk => Or.inr (Or.inl (by omega))
        · refine ⟨fun _ => ⟨i0, k0, by omega, hne0⟩, fun _ => ⟨i0, fun h => ?_⟩⟩
          have h1 := (volSq_zero_iff hcv x t i0).mp h.1
          have h2 : ∀ k ≤ k0, cRet c x k i0 = 0 := fun k hk => h1 k (by omega) (Or.inr (Or.inl (by omega)))
          exact hne0 ((cRet_flat hcv hcm x i0 k0).mp h2 k0 le_rfl)
    have hbs : Started b x := by
      rcases hs with h | h | ⟨i, k, hk, hne⟩
      · rw [hmean] at h; cases h
      · exact Or.inr (Or.inl (hc ▸ h))
      · exact Or.inr (Or.inr ⟨i, k, hv ▸ hk, hne⟩)
    rw [key a ha hmean hs, key b hb (hm ▸ hmean) hbs]

/-- If nothing moves at the start, all volatilities are zero (with winsorising and mean adjustment). -/
theorem vol_zero_of_not_started {a : RealArgs} (ha : a.Valid) {x : ℕ → ι → ℝ} (hs : ¬ Started a x) (t : ℕ) (i : ι) :
    vol a x t i = 0 := by
  unfold Started at hs
  push Not at hs
  obtain ⟨h1, h2, h3⟩ := hs
  have hm : a.mean = true := by cases h : a.mean with
    | true => rfl
    | false => exact absurd h h1
  rw [volSq_zero_iff ha]
  intro k _ hk
  rcases hk with hk | hk | rfl
  · exact absurd hk h2
  · exact (cRet_flat ha hm x i k).mpr (fun l hl => h3 i l (by omega)) k le_rfl
  · exact (cRet_flat ha hm x i 0).mpr (fun l hl => by rw [Nat.le_zero.mp hl]) 0 le_rfl

end CovPred
