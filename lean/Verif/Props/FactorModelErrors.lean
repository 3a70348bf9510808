import Verif.Props.FactorModelExample
import Verif.Spec.FactorModelErrors
import Verif.Lemmas.RunErrors

/-
Property C101, continued: which exceptions the factor model raises, and where.
-/
set_option linter.unusedSectionVars false
namespace CovPred
open Matrix XR

variable {τ : Type} [LinearOrder τ] {n k : ℕ} {L : Type} [DecidableEq L]

theorem construct_fails (hk : 0 < k) (label : XR × XR → L) (solvers : Solvers k) (hsolv : ∀ K, (solvers K).Feasible)
    {f : ℕ → Vec k} (hf : Awake f) {N s0 : ℕ} {tm : ℕ → τ} (htm : Increasing N tm) (hs0 : 3 * k - 2 ≤ s0) (hN : s0 + 10 < N)
    {p0 : ℝ × ℝ} {ps : List (ℝ × ℝ)} (hp : PosPairs (p0 :: ps)) {e : Err}
    (he : constructFactorCovariance label solvers (rowDict N tm f) ((p0 :: ps).map xr) (tm s0) = .error e) :
    FactorFails label solvers (p0 :: ps) tm f s0 N e := by
  rw [construct_eq_tail hk label solvers hf htm hs0 (by omega) hp] at he
  have hlen : (factorPanel label (p0 :: ps) tm f s0 N).len = N - s0 := rfl
  by_cases hfin : FiniteExperts label (p0 :: ps) f s0 N
  · obtain ⟨S, hS1, hS2⟩ := factor_sigmas (tm := tm) label hfin
    unfold factorTail at he
    rw [hS1, ok_bind] at he
    dsimp only at he
    rw [hS2] at he
    rcases solve_list_fails (expertPairs_pos label p0 ps) (fun _ _ => rfl) (P := factorPanel label (p0 :: ps) tm f s0 N)
      (fun s t hst ht => htm _ _ (by omega) (by rw [hlen] at ht; omega))
      (fun t _ k => expertCov_symm label _ f _ k)
      (fun t _ ht => by
        rw [hlen] at ht
        exact lookup_map_range (fun s t h1 h2 => htm s t h1 h2) _ _ (by omega))
      (by rw [hlen]; omega) (by norm_num) (hsolv _) (show 10 = min 10 _ by rw [hlen]; omega) he
      with ⟨h1, t, ht, i, hi⟩ | ⟨h1, h2⟩
    · exact Or.inl ⟨h1, Or.inr ⟨s0 + t, by omega, by rw [hlen] at ht; omega, i, hi⟩⟩
    · refine Or.inr ⟨hfin, fun s h3 h4 i => ?_, h2⟩
      have := h1 (s - s0) (by rw [hlen]; omega) i
      change (expertCov label (p0 :: ps) f (s0 + (s - s0)) i).PosDef at this
      rwa [show s0 + (s - s0) = s by omega] at this
  · refine Or.inl ⟨?_, Or.inl hfin⟩
    unfold factorTail at he
    rcases hS : finM fun i => finiteCovs (iewmaRows tm f N s0 (expertPairs label ((p0 :: ps).map xr))[i].2) with e' | S
    · rw [hS] at he
      cases he
      obtain ⟨i, hi, _⟩ := finM_error _ _ hS
      unfold iewmaRows at hi
      rw [finiteCovs_map] at hi
      split at hi
      · cases hi
      · cases hi; rfl
    · exfalso
      apply hfin
      rw [finM_ok_iff] at hS
      intro i s h1 h2
      have := hS i
      unfold iewmaRows at this
      rw [finiteCovs_map] at this
      split at this
      · next hall => exact hall s (by rw [List.mem_range'_1]; omega)
      · cases this

theorem genBlocks_error {A B : Type} (f : A → List B × Option Err) {e : Err} : ∀ (l : List A), (genBlocks f l).2 = some e →
    ∃ (i : ℕ) (hi : i < l.length), (f l[i]).2 = some e ∧ ∀ (j : ℕ) (hj : j < i), (f (l[j]'(by omega))).2 = none := by
  intro l
  induction l with
  | nil => intro h; cases h
  | cons a l ih =>
    intro h
    rcases hf : f a with ⟨b, _ | e'⟩
    · unfold genBlocks at h
      rw [hf] at h
      obtain ⟨i, hi, h1, h2⟩ := ih h
      refine ⟨i + 1, by simpa using hi, h1, fun j hj => ?_⟩
      cases j with
      | zero => show (f a).2 = none; rw [hf]
      | succ j => exact h2 j (by omega)
    · unfold genBlocks at h
      rw [hf] at h
      refine ⟨0, by simp, ?_, fun j hj => by omega⟩
      show (f a).2 = some e
      rw [hf]; exact h

theorem factorBlock_fails (label : XR × XR → L) {pca : Pca n k} {solvers : Solvers k} {pairs : List (ℝ × ℝ)} {T : ℕ}
    {tm : ℕ → τ} {x : ℕ → Vec n} {freq memory : ℕ} (h : FactorSetup pca solvers pairs T tm x freq memory) {t : ℕ}
    (h1 : memory ≤ t) (h2 : t < T) {N : ℕ} (hN : N = min (t + freq) T) {e : Err}
    (he : (factorBlock label pca solvers (rowDict T tm x) (pairs.map xr) freq memory t).2 = some e) :
    pca (trainingRows memory x t) = .error e ∨ ∃ E, pca (trainingRows memory x t) = .ok E ∧
      FactorFails label solvers pairs tm (factorRet E x) (t - 10) N e := by
  rcases factorBlock_spec label h h1 h2 hN with ⟨e', he', hno⟩ | ⟨E, _, _, _, he'⟩
  swap
  · rw [he'] at he; cases he
  have hk := h.factors
  have hw := h.warm
  have hstep := h.step
  obtain ⟨p0, ps, rfl⟩ : ∃ p0 ps, pairs = p0 :: ps := by
    cases hp : pairs with
    | nil => exact absurd hp h.pairs_ne
    | cons p0 ps => exact ⟨p0, ps, rfl⟩
  have hT : (((rowDict T tm x).map Prod.fst).length : Int) = T := by simp [rowDict]
  rw [he'] at he
  cases he
  unfold factorBlock at he'
  dsimp only at he'
  rw [pyGet_rows T tm x (j := t - 1) (by omega) (by omega), ok_bind,
    pyGet_rows T tm x (j := t - memory) (by omega) (by omega), ok_bind,
    pyGet_rows T tm x (j := t - 10) (by omega) (by omega), ok_bind,
    pyGet_rows T tm x (j := N - 1) (by rw [hT]; omega) (by omega), ok_bind,
    train_rows h.labels x (by omega) h1 h2, filter_end h.labels x (by omega), show N - 1 + 1 = N by omega] at he'
  rcases hE : pca (trainingRows memory x t) with e0 | E
  · left
    rw [hE] at he'
    cases he'; rfl
  · right
    refine ⟨E, rfl, ?_⟩
    rw [hE, ok_bind] at he'
    have ef : ((rowDict N tm x).map fun p : τ × Vec n => (p.1, E *ᵥ p.2)) = rowDict N tm (factorRet E x) := by
      unfold rowDict; rw [List.map_map]; rfl
    have htm : Increasing N tm := fun a b hab hb => h.labels a b hab (by omega)
    rw [ef] at he'
    have hc := construct_ok_iff hk label solvers h.feasible (h.awake t E h1 h2 hE) htm (s0 := t - 10) (by omega) (by omega)
      h.halflives
    rcases hd : constructFactorCovariance label solvers (rowDict N tm (factorRet E x)) ((p0 :: ps).map xr) (tm (t - 10)) with e | d
    · rw [hd] at he'
      cases he'
      exact construct_fails hk label solvers h.feasible (h.awake t E h1 h2 hE) htm (by omega) (by omega) h.halflives hd
    · exfalso
      obtain ⟨hfin, hcomp, hdd⟩ := (hc d).mp hd
      exact hno E hE ⟨hfin, hcomp⟩

/-- **C101.** If the generator raises `e`, it does so in a block `i` that starts before the end: the earlier blocks all went
through, the items are those of the rows of these blocks, and `e` is the exception of `pca` on the `memory` rows before the
block, or, with the exposures `E`, the one of the factor covariances of this block (`FactorFails`): `LinAlgError` if an expert
is not finite or not positive definite or a window is not positive definite, else an exception of the solver, and
`AttributeError` if the solver fails with `SolverError`. -/
theorem C101_exceptions (label : XR × XR → L) {pca : Pca n k} {solvers : Solvers k} {pairs : List (ℝ × ℝ)} {T : ℕ}
    {tm : ℕ → τ} {x : ℕ → Vec n} {freq memory : ℕ} (h : FactorSetup pca solvers pairs T tm x freq memory) {e : Err}
    (he : (constructFactorModel label pca solvers (rowDict T tm x) (pairs.map xr) freq memory).2 = some e) :
    ∃ i, memory + i * freq < T ∧
      (∀ j < i, ∃ E, pca ((List.range' (j * freq) memory).map x) = .ok E ∧
        FiniteExperts label pairs (factorRet E x) (memory + j * freq - 10) (min (memory + j * freq + freq) T) ∧
        (factorPanel label pairs tm (factorRet E x) (memory + j * freq - 10) (min (memory + j * freq + freq) T)).Completes
          (solvers _) 10) ∧
      (constructFactorModel label pca solvers (rowDict T tm x) (pairs.map xr) freq memory).1.map FactorModel.time
        = (List.range' memory (i * freq)).map tm ∧
      (pca ((List.range' (i * freq) memory).map x) = .error e ∨
        ∃ E, pca ((List.range' (i * freq) memory).map x) = .ok E ∧
          FactorFails label solvers pairs tm (factorRet E x) (memory + i * freq - 10) (min (memory + i * freq + freq) T) e) := by
  obtain ⟨c, hc, err, hrun, hok, hend⟩ := factorModel_run label h
  have htr : ∀ i, trainingRows memory x (memory + i * freq) = (List.range' (i * freq) memory).map x := fun i => by
    unfold trainingRows; rw [Nat.add_sub_cancel_left]
  have hend' : c < (T - memory + freq - 1) / freq ∧
      ¬ BlockOk label pca solvers pairs T tm x freq memory (memory + c * freq) := by
    rcases hend with ⟨h1, _⟩ | ⟨h1, h2, _⟩
    · rw [hrun] at he
      dsimp only at he
      rw [h1] at he; cases he
    · exact ⟨h1, h2⟩
  have hlt := start_lt (T := T) (memory := memory) h.step hend'.1
  -- the block that raises is block `c`
  have hblock : (factorBlock label pca solvers (rowDict T tm x) (pairs.map xr) freq memory (memory + c * freq)).2 = some e := by
    have he' := he
    unfold constructFactorModel at he'
    rw [if_neg h.step.ne', show (rowDict T tm x).length = T by simp [rowDict]] at he'
    obtain ⟨i, hi, h1, h2⟩ := genBlocks_error _ _ he'
    have hlen : (blockStarts memory T freq).length = (T - memory + freq - 1) / freq := by simp [blockStarts]
    have hget : ∀ (j : ℕ) (hj : j < (blockStarts memory T freq).length), (blockStarts memory T freq)[j] = memory + j * freq := by
      intro j hj; simp [blockStarts]
    rw [hget] at h1
    rcases lt_trichotomy i c with hic | rfl | hic
    · exfalso
      have hb := hok i hic
      rcases factorBlock_spec label h (t := memory + i * freq) (by omega) (start_lt h.step (by omega)) rfl
        with ⟨e', _, hno⟩ | ⟨E, _, _, _, hE⟩
      · exact hno _ hb.exposure ⟨hb.finite, hb.completes⟩
      · rw [hE] at h1; cases h1
    · exact h1
    · exfalso
      have h3 := h2 c hic
      rw [hget] at h3
      rcases factorBlock_spec label h (t := memory + c * freq) (by omega) hlt rfl
        with ⟨e', he', _⟩ | ⟨E, hE, hf, hcm, _⟩
      · rw [he'] at h3; cases h3
      · apply hend'.2
        have hEE : exposureAt pca memory x (memory + c * freq) = E := by unfold exposureAt; rw [hE]
        exact ⟨by rw [hEE]; exact hE, by rw [hEE]; exact hf, by rw [hEE]; exact hcm⟩
  refine ⟨c, hlt, fun j hj => ?_, ?_, ?_⟩
  · have hb := hok j hj
    exact ⟨_, by rw [← htr]; exact hb.exposure, hb.finite, hb.completes⟩
  · rw [hrun]
    dsimp only
    rw [List.map_map, show min (c * freq) (T - memory) = c * freq by omega]
    rfl
  · rw [← htr]
    exact factorBlock_fails label h (by omega) hlt rfl hblock

namespace FmEx

/-- a `pca` that fails if the third training row is the one of an odd position -/
noncomputable def pca2 : Pca 2 1 := fun rows => if rows[(2 : ℕ)]? = some (x 3) then .error .linAlgError else .ok E

theorem setup2 (T : ℕ) : FactorSetup pca2 solvers pairs T (id : ℕ → ℕ) x 1 11 where
  factors := by norm_num
  labels := fun s t h _ => h
  pairs_ne := by simp [pairs]
  halflives := pos
  step := by norm_num
  warm := by norm_num
  feasible := fun K => exactSolver_exact.feasible
  awake := fun t E' _ _ h => by
    unfold pca2 at h
    split at h
    · cases h
    · cases h; exact awake

theorem x_ne : x 2 ≠ x 3 := fun h => by
  have := congrFun h 0
  norm_num [x] at this

/-- The hypothesis of C101_exceptions is met: over 14 rows with blocks of one row, the second block raises, after one item. -/
example : (constructFactorModel label pca2 solvers (rowDict 14 id x) (pairs.map xr) 1 11).2 = some .linAlgError ∧
    (constructFactorModel label pca2 solvers (rowDict 14 id x) (pairs.map xr) 1 11).1.map FactorModel.time = [11] := by
  have h1 : pca2 ((List.range' (1 * 1) 11).map x) = .error .linAlgError := by
    unfold pca2
    exact if_pos rfl
  have h0 : pca2 ((List.range' (0 * 1) 11).map x) = .ok E := by
    unfold pca2
    rw [if_neg]
    intro h
    exact x_ne (Option.some.inj h)
  rcases hr : (constructFactorModel label pca2 solvers (rowDict 14 id x) (pairs.map xr) 1 11).2 with _ | e
  · obtain ⟨E', hE, _⟩ := (C101_success label (setup2 14)).mp hr 1 (by norm_num)
    rw [h1] at hE; cases hE
  · obtain ⟨i, hi, hearlier, hitems, hwhy⟩ := C101_exceptions label (setup2 14) hr
    have hi1 : i = 1 := by
      rcases Nat.lt_trichotomy i 1 with h | h | h
      · have : i = 0 := by omega
        subst this
        rcases hwhy with h2 | ⟨E', hE, h2⟩
        · rw [h0] at h2; cases h2
        · rw [h0] at hE
          cases hE
          rcases h2 with ⟨_, h2 | ⟨s, _, _, i, hi⟩⟩ | ⟨_, _, h2⟩
          · exact absurd (finite _ _) h2
          · exact absurd (cov_posDef s i) hi
          · exfalso
            have hcp := completes (11 + 0 * 1 - 10) (min (11 + 0 * 1 + 1) 14)
            rcases h2 with ⟨⟨t, h3, h4, h5⟩, _⟩ | ⟨_, ⟨t, h3, h4, h5, _⟩ | ⟨_, ⟨t, h3, h4, h5⟩, _⟩⟩
            · exact h5 (hcp.gram t h3 h4)
            · obtain ⟨w, hw⟩ := hcp.solved t h3 h4
              rw [h5] at hw; cases hw
            · obtain ⟨w, hw⟩ := hcp.solved t h3 h4
              rw [h5] at hw; cases hw
      · exact h
      · obtain ⟨E', hE, _⟩ := hearlier 1 h
        rw [h1] at hE; cases hE
    subst hi1
    refine ⟨?_, hitems⟩
    rcases hwhy with h2 | ⟨E', hE, _⟩
    · rw [h1] at h2; cases h2; rfl
    · rw [h1] at hE; cases hE

end FmEx
end CovPred
