import Verif.Props.EM
import Verif.Props.Scores

/-
`em_low_rank_log_likelihood` (experiment_utils.py): property C93.
-/
set_option linter.unusedSectionVars false
namespace CovPred
open Matrix

variable {τ : Type} [LinearOrder τ] {n : ℕ}

/-- **C93.** If `regularize_covariance` turns the covariance matrices into factor models with positive idiosyncratic
variances, then `em_low_rank_log_likelihood` scores, with the rules of `log_likelihood_low_rank`, one factor model per
time, each at least as likely for that time's covariance matrix as the one of `regularize_covariance`. -/
theorem C93_em_score {eigh : Eigh} {returns : List (τ × NRow (n + 1))} {sigmas : Dict τ (Mat (n + 1))} {rank : ℕ}
    {low : Dict τ (LowRankDiag (n + 1) rank)}
    (hl : regularizeCovariance eigh sigmas rank true = (low.map fun p => (p.1, RegOut.lowRank p.2), none))
    (hkeys : (sigmas.map Prod.fst).Nodup) (hpd : ∀ p ∈ sigmas, p.2.PosDef) (hpos : ∀ p ∈ low, ∀ i, 0 < p.2.d i) :
    ∃ em : Dict τ (LowRankDiag (n + 1) rank),
      emLowRankLogLikelihood eigh returns sigmas rank = logLikelihoodLowRank returns em ∧
      em.map Prod.fst = sigmas.map Prod.fst ∧ low.map Prod.fst = sigmas.map Prod.fst ∧
      ∀ (m : ℕ) (S : Mat (n + 1)) (x y : LowRankDiag (n + 1) rank) (t : τ), sigmas[m]? = some (t, S) →
        low[m]? = some (t, x) → em[m]? = some (t, y) →
          (∀ i, 0 < y.d i) ∧ factorLogLik S x.F x.d ≤ factorLogLik S y.F y.d := by
  -- the keys of `low`
  have hk : low.map Prod.fst = sigmas.map Prod.fst := by
    clear hpos hpd hkeys
    unfold regularizeCovariance at hl
    induction sigmas generalizing low with
    | nil =>
      cases low with
      | nil => rfl
      | cons q l => simp [genMap] at hl
    | cons p sigmas ih =>
      rw [genMap] at hl
      cases hx : regularizeOne eigh p.2 rank true with
      | error e => rw [hx] at hl; cases congrArg Prod.snd hl
      | ok x =>
        rw [hx] at hl
        simp only [bind, Except.bind, pure, Except.pure] at hl
        cases low with
        | nil => cases congrArg Prod.fst hl
        | cons q l =>
          rw [Prod.mk.injEq, List.map_cons, List.cons.injEq, Prod.mk.injEq] at hl
          obtain ⟨⟨⟨h1, _⟩, h3⟩, h4⟩ := hl
          have := ih (low := l) (by rw [Prod.ext_iff]; exact ⟨h3, h4⟩)
          rw [List.map_cons, List.map_cons, this, h1]
  have honly : onlyLowRank (low.map fun p => (p.1, (RegOut.lowRank p.2 : RegOut (n + 1) rank))) = low := by
    clear hl hk hpos
    induction low with
    | nil => rfl
    | cons p l ih =>
      change (p.1, p.2) :: onlyLowRank (l.map fun p => (p.1, (RegOut.lowRank p.2 : RegOut (n + 1) rank))) = _
      rw [ih]
  have hlook : ∀ (m : ℕ) (t : τ) (x : LowRankDiag (n + 1) rank), low[m]? = some (t, x) → low.lookup t = some x := by
    rw [← hk] at hkeys
    clear hl hk hpos honly hpd
    induction low with
    | nil => intro m t x h; simp at h
    | cons p l ih =>
      intro m t x h
      rw [List.map_cons, List.nodup_cons] at hkeys
      cases m with
      | zero =>
        simp only [List.getElem?_cons_zero, Option.some.injEq] at h
        subst h
        simp
      | succ m =>
        rw [List.getElem?_cons_succ] at h
        have hne : t ≠ p.1 := by
          rintro rfl
          exact hkeys.1 (List.mem_map.mpr ⟨_, List.mem_of_getElem? h, rfl⟩)
        have hb : (t == p.1) = false := by simpa using hne
        rw [List.lookup_cons, hb]
        exact ih hkeys.2 m t x h
  have hlen : low.length = sigmas.length := by
    have := congrArg List.length hk; simpa using this
  have hfirst : ∀ (m : ℕ) (t : τ) (S : Mat (n + 1)), sigmas[m]? = some (t, S) → ∃ x, low[m]? = some (t, x) := by
    intro m t S h
    have h1 := congrArg (fun l => l[m]?) hk
    simp only [List.getElem?_map, h, Option.map_some] at h1
    cases hlm : low[m]? with
    | none => rw [hlm] at h1; cases h1
    | some q =>
      rw [hlm] at h1
      simp only [Option.map_some, Option.some.injEq] at h1
      subst h1
      exact ⟨q.2, rfl⟩
  obtain ⟨em, he, hf⟩ := em_lift (sigmas := sigmas) (initial := low)
    (fun p y => (∀ i, 0 < y.d i) ∧ ∀ x, low.lookup p.1 = some x → factorLogLik p.2 x.F x.d ≤ factorLogLik p.2 y.F y.d) (by
      intro p hp
      obtain ⟨m, hm⟩ := List.getElem?_of_mem hp
      obtain ⟨x, hx⟩ := hfirst m p.1 p.2 hm
      have hx' := hlook m p.1 x hx
      obtain ⟨y, e1, e2, e3⟩ := emLoop_ok (hpd p hp) 5 x (hpos _ (List.mem_of_getElem? hx))
      refine ⟨x, y, hx', e1, e2, fun x' h' => ?_⟩
      rw [hx'] at h'; cases h'
      exact e3)
  refine ⟨em, ?_, ?_, hk, ?_⟩
  · unfold emLowRankLogLikelihood
    rw [hl]
    simp only [genDict, bind, Except.bind, honly]
    rw [he]
  · clear he hl hk hlen hfirst hlook hkeys hpd
    induction hf with
    | nil => rfl
    | cons h _ ih => rw [List.map_cons, List.map_cons, ih, h.1]
  · intro m S x y t hS hx hy
    have hx' := hlook m t x hx
    have : ∀ {l : List (τ × Mat (n + 1))} {e : List (τ × LowRankDiag (n + 1) rank)} {R}, List.Forall₂ R l e →
        ∀ (m : ℕ) a b, l[m]? = some a → e[m]? = some b → R a b := by
      intro l e R h
      induction h with
      | nil => intro m a b h; simp at h
      | cons h _ ih =>
        intro m a b ha hb
        cases m with
        | zero =>
          simp only [List.getElem?_cons_zero, Option.some.injEq] at ha hb
          subst ha; subst hb; exact h
        | succ m => exact ih m a b (by simpa using ha) (by simpa using hb)
    obtain ⟨_, h1, h2⟩ := this hf m _ _ hS hy
    exact ⟨h1, h2 x hx'⟩

/-- Two assets with unit variances and correlation 1/2: the first eigenvalue is 3/2 with eigenvector (1, 1)/√2, and what
remains are idiosyncratic variances of 1/4. -/
example : ∃ (eigh : Eigh) (S : Mat 2) (low : Dict ℕ (LowRankDiag 2 1)), S 0 1 = 1 / 2 ∧ S.PosDef ∧
    regularizeCovariance eigh [(7, S)] 1 true = (low.map fun p => (p.1, RegOut.lowRank p.2), none) ∧
    ∀ p ∈ low, ∀ i, 0 < p.2.d i := by
  set S : Mat 2 := !![1, 1 / 2; 1 / 2, 1] with hS
  have h11 : ∀ i, S i i = 1 := by intro i; fin_cases i <;> simp [hS]
  have hno : ¬ ∃ i, S i i ≤ 0 := by rintro ⟨i, h⟩; rw [h11] at h; linarith
  have hsq : (Real.sqrt 2)⁻¹ * (Real.sqrt 2)⁻¹ = 1 / 2 := by
    rw [← mul_inv, Real.mul_self_sqrt (by norm_num)]; norm_num
  refine ⟨fun _ _ _ => (fun _ => 3 / 2, Matrix.of fun _ _ => (Real.sqrt 2)⁻¹), S,
    [(7, ⟨Matrix.of fun _ _ => (Real.sqrt 2)⁻¹ * Real.sqrt (3 / 2), fun _ => 1 / 4⟩)], by simp [hS], ?_, ?_, ?_⟩
  · refine Matrix.PosDef.of_dotProduct_mulVec_pos ?_ fun x hx => ?_
    · ext i j; fin_cases i <;> fin_cases j <;> simp [hS]
    · have : star x ⬝ᵥ (S *ᵥ x) = (x 0 ^ 2 + x 1 ^ 2) / 2 + (x 0 + x 1) ^ 2 / 2 := by
        simp [hS, dotProduct, Matrix.mulVec, Fin.sum_univ_two]; ring
      rw [this]
      rcases eq_or_ne (x 0) 0 with h0 | h0
      · have h1 : x 1 ≠ 0 := fun h1 => hx (by ext i; fin_cases i <;> simp [h0, h1])
        have := sq_pos_of_ne_zero h1
        nlinarith [sq_nonneg (x 0), sq_nonneg (x 0 + x 1)]
      · have := sq_pos_of_ne_zero h0
        nlinarith [sq_nonneg (x 1), sq_nonneg (x 0 + x 1)]
  · have hone : regularizeOne (fun _ _ _ => (fun _ => 3 / 2, Matrix.of fun _ _ => (Real.sqrt 2)⁻¹)) S 1 true =
        .ok (.lowRank ⟨Matrix.of fun _ _ => (Real.sqrt 2)⁻¹ * Real.sqrt (3 / 2), fun _ => 1 / 4⟩) := by
      unfold regularizeOne regularizeCorrelation
      rw [if_neg hno]
      simp only [show ¬ (1 < 1 ∨ 2 < 1) by omega, if_false, bind, Except.bind, pure, Except.pure, if_true]
      congr 2
      simp only [LowRankDiag.mk.injEq]
      constructor
      · ext i j; simp [h11]
      · funext i
        simp only [h11, Real.sqrt_one, Matrix.diagonal_apply_eq, Matrix.sub_apply, Matrix.of_apply, Matrix.mul_apply,
          Matrix.diagonal_apply, Matrix.transpose_apply, Finset.univ_unique, Finset.sum_singleton, if_true]
        have : (1 : ℝ) - (Real.sqrt 2)⁻¹ * (3 / 2) * (Real.sqrt 2)⁻¹ = 1 / 4 := by
          have : (Real.sqrt 2)⁻¹ * (3 / 2) * (Real.sqrt 2)⁻¹ = 3 / 2 * ((Real.sqrt 2)⁻¹ * (Real.sqrt 2)⁻¹) := by ring
          rw [this, hsq]; norm_num
        simpa using this
    unfold regularizeCovariance genMap
    rw [hone]
    rfl
  · intro p hp i
    rw [List.mem_singleton] at hp
    subst hp
    norm_num

end CovPred
