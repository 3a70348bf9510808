import Verif.Props.Dilution
import Verif.Lemmas.LinAlg
import Mathlib.Tactic

/-
Properties C56, C81-C85: the portfolio problems of the `Trader` (trading_model.py).
-/
namespace CovPred
open Matrix
set_option linter.unusedSectionVars false

variable {n : ℕ} {τ : Type} [DecidableEq τ]

/-! ### C56: the whitener -/

private theorem sum_sq_eq (A : Mat n) (w : Vec n) : ∑ i, (∑ j, A i j * w j) ^ 2 = w ⬝ᵥ ((Aᵀ * A) *ᵥ w) := by
  rw [← Matrix.mulVec_mulVec, Matrix.dotProduct_mulVec, Matrix.vecMul_transpose]
  exact Finset.sum_congr rfl fun i _ => by rw [sq]; rfl

/-- **C56.** For a positive definite covariance the whitener exists and the risk expression of the problems is the
predicted standard deviation. -/
theorem C56_whitener {S : Mat n} (hS : S.PosDef) :
    ∃ L, getLInv S = .ok L ∧ ∀ w, riskExpr L w = predictedStd S w := by
  have hdet : S.det ≠ 0 := hS.det_pos.ne'
  have hinv : S⁻¹.PosDef := hS.inv
  have hsym : (S⁻¹)ᵀ = S⁻¹ := by
    have := hinv.isHermitian
    rwa [Matrix.IsHermitian, Matrix.conjTranspose_eq_transpose_of_trivial] at this
  obtain ⟨L, hL⟩ := exists_chol hinv
  have hc : chol? S⁻¹ = .ok L := chol?_ok_iff.2 (by rw [symLower_of_symm hsym]; exact hL)
  have hLd : L.det ≠ 0 := hL.det_pos.ne'
  refine ⟨L⁻¹, ?_, ?_⟩
  · unfold getLInv
    rw [inv?_of_ne hdet]
    change (chol? S⁻¹ >>= fun L => inv? L) = _
    rw [hc]
    exact inv?_of_ne hLd
  · intro w
    unfold riskExpr predictedStd
    congr 1
    rw [sum_sq_eq]
    have : L⁻¹ᵀ * L⁻¹ = S := by
      rw [Matrix.transpose_nonsing_inv, ← Matrix.mul_inv_rev, hL.eq, Matrix.nonsing_inv_nonsing_inv _ hdet.isUnit]
    rw [this]

/-- **C56.** A singular covariance has no whitener. -/
theorem C56_singular {S : Mat n} (hS : S.det = 0) : getLInv S = .error .linAlgError := by
  unfold getLInv
  rw [inv?_of_eq hS]
  rfl

/-! ### C81: the shared default list of constraints -/

private theorem run_spec (bs : List (List ℝ → Prop)) (s : Session) :
    (s.run bs).next = s.next + bs.length ∧
      (s.run bs).default = s.default ++ (bs.zipIdx s.next).map fun p => fun v : Assignment => p.1 (v p.2) := by
  induction bs generalizing s with
  | nil => simp [Session.run]
  | cons b bs ih =>
    unfold Session.run
    obtain ⟨h1, h2⟩ := ih (s.backtest b).1
    constructor
    · rw [h1]; simp [Session.backtest]; omega
    · rw [h2]
      simp [Session.backtest, List.zipIdx_cons, List.append_assoc]

/-- **C81.** The problem of a backtest without the argument `cons` is feasible exactly for the weights that satisfy its
own constraints, provided that the constraints of *every* earlier such backtest of the session can be satisfied; if one
of them cannot, no weights at all are feasible. -/
theorem C81_default_cons (earlier : List (List ℝ → Prop)) (b : List ℝ → Prop) (w : List ℝ) :
    FeasibleFor (((({} : Session).run earlier).backtest b).2) (({} : Session).run earlier).next w
      ↔ b w ∧ ∀ e ∈ earlier, ∃ w', e w' := by
  obtain ⟨h1, h2⟩ := run_spec earlier {}
  simp only [Nat.zero_add, List.nil_append] at h1 h2
  unfold Session.backtest FeasibleFor
  dsimp only
  rw [h1, h2]
  constructor
  · rintro ⟨v, hv, hc⟩
    refine ⟨?_, ?_⟩
    · have := hc _ (List.mem_append_right _ (List.mem_singleton.2 rfl))
      rw [← hv]
      exact this
    · intro e he
      obtain ⟨i, hi, rfl⟩ := List.getElem_of_mem he
      have hmem : (earlier[i], i) ∈ earlier.zipIdx 0 := by
        rw [List.mk_mem_zipIdx_iff_getElem?]
        exact List.getElem?_eq_getElem hi
      have := hc _ (List.mem_append_left _ (List.mem_map.2 ⟨_, hmem, rfl⟩))
      exact ⟨_, this⟩
  · rintro ⟨hb, he⟩
    classical
    refine ⟨fun k => if k = earlier.length then w else
      if h : ∃ w', ∃ e, earlier[k]? = some e ∧ e w' then h.choose else [], by simp, ?_⟩
    intro c hc
    rcases List.mem_append.1 hc with hc | hc
    · obtain ⟨p, hp, rfl⟩ := List.mem_map.1 hc
      have hk : earlier[p.2]? = some p.1 := (List.mem_zipIdx_iff_getElem?).1 hp
      have hlt : p.2 < earlier.length := by
        by_contra hge
        rw [List.getElem?_eq_none (by omega)] at hk
        cases hk
      have hmem : p.1 ∈ earlier := List.mem_of_getElem? hk
      obtain ⟨w', hw'⟩ := he _ hmem
      have hex : ∃ w', ∃ e, earlier[p.2]? = some e ∧ e w' := ⟨w', p.1, hk, hw'⟩
      dsimp only
      rw [if_neg (by omega), dif_pos hex]
      obtain ⟨e, he1, he2⟩ := hex.choose_spec
      rw [hk] at he1
      cases he1
      exact he2
    · rw [List.mem_singleton] at hc
      subst hc
      simpa using hb

/-- **C81.** With the standard bounds a minimum risk portfolio of at most six assets is infeasible (six times 0.15 is
less than 1), so after one such call with the default list every later one in the session is infeasible, for any
number of assets and any constraints. -/
theorem C81_poisoned {m : ℕ} (hm : m ≤ 6) (earlier later : List (List ℝ → Prop)) (b : List ℝ → Prop) (w : List ℝ) :
    ¬ FeasibleFor (((({} : Session).run (earlier ++ minRiskBlock m {} :: later)).backtest b).2)
      (({} : Session).run (earlier ++ minRiskBlock m {} :: later)).next w := by
  rw [C81_default_cons]
  rintro ⟨_, h⟩
  obtain ⟨w', v, _, h1, _, h3, _⟩ := h (minRiskBlock m {}) (by simp)
  have : ∑ i, v i ≤ ∑ _i : Fin m, (15 / 100 : ℝ) := Finset.sum_le_sum fun i _ => h3 _ rfl i
  rw [h1, Finset.sum_const, Finset.card_univ, Fintype.card_fin, nsmul_eq_mul] at this
  have hm' : (m : ℝ) ≤ 6 := by exact_mod_cast hm
  linarith

/-- For ten assets the standard constraints can be satisfied. -/
example : minRiskBlock 10 {} (List.ofFn fun _ : Fin 10 => (1 / 10 : ℝ)) := by
  refine ⟨_, rfl, ?_, ?_, ?_, ?_⟩
  · simp
  · intro s hs; cases hs; norm_num
  · intro u hu i; cases hu; norm_num
  · intro l hl i; cases hl; norm_num

/-! ### C82: the worker pool -/

/-- If the parameter values of a task do not depend on the values before it, the pool computes the same for every way
to cut the tasks into chunks. -/
private theorem runPool_const {α β : Type} (solve : RiskParams n → β) (step : RiskParams n → α → RiskParams n) (g : α → RiskParams n)
    (P : RiskParams n → Prop) (store : RiskParams n) (h0 : P store) (hstep : ∀ st a, P st → step st a = g a ∧ P (step st a))
    (chunks : List (List α)) : runPool solve step store chunks = chunks.flatten.map fun a => solve (g a) := by
  have key : ∀ (l : List α) (st : RiskParams n), P st → runChunk solve step st l = l.map fun a => solve (g a) := by
    intro l
    induction l with
    | nil => intro st _; rfl
    | cons a l ih =>
      intro st hst
      obtain ⟨h1, h2⟩ := hstep st a hst
      unfold runChunk
      rw [ih _ h2, List.map_cons, h1]
  unfold runPool
  rw [List.map_flatten]
  congr 1
  exact List.map_congr_left fun l _ => key l store h0

private theorem minRiskTasks_eq (Ls : List (Mat n)) : minRiskTasks Ls = Ls.map some := by
  unfold minRiskTasks
  rw [List.take_append_of_le_length (by simp)]
  exact List.take_of_length_le (by simp)

/-- **C82.** `max_diverse` solves the problem of every date with that date's whitener and volatilities, for every way the
pool cuts the work and whatever the initial values. -/
theorem C82_max_diverse {β : Type} (solve : RiskParams n → β) (store : RiskParams n) (chunks : List (List (Mat n × Vec n))) :
    runPool solve (fun st p => solveMaxDiverseParams st p.1 p.2) store chunks
      = chunks.flatten.map fun p => solve ⟨p.1, p.2⟩ :=
  runPool_const solve _ (fun p => ⟨p.1, p.2⟩) (fun _ => True) store trivial (fun _ _ _ => ⟨rfl, trivial⟩) chunks

/-- **C82.** `min_risk` solves the problem of every date with that date's whitener. -/
theorem C82_min_risk {β : Type} (solve : Mat n → β) (store : RiskParams n) (Ls : List (Mat n))
    (chunks : List (List (Option (Mat n)))) (hc : chunks.flatten = minRiskTasks Ls) :
    robustPool (fun p => solve p.LInv) store chunks = Ls.map solve := by
  rw [minRiskTasks_eq] at hc
  have hmem : ∀ o ∈ chunks.flatten, o.isSome := by
    intro o ho
    rw [hc, List.mem_map] at ho
    obtain ⟨L, _, rfl⟩ := ho
    rfl
  unfold robustPool runPool
  have key : ∀ (l : List (Option (Mat n))) (st : RiskParams n), (∀ o ∈ l, o.isSome) →
      runChunk (fun p => solve p.LInv) (fun st o => match o with
        | some L => solveMinRiskParams st L
        | none => st) st l = l.map fun o => solve (o.getD 0) := by
    intro l
    induction l with
    | nil => intro st _; rfl
    | cons o l ih =>
      intro st hl
      cases o with
      | none => exact absurd (hl none (by simp)) (by simp)
      | some L =>
        unfold runChunk
        rw [ih _ fun o ho => hl o (List.mem_cons_of_mem _ ho)]
        rfl
  refine (congrArg List.flatten (List.map_congr_left fun l hl =>
    key l store fun o ho => hmem o (List.mem_flatten.2 ⟨l, hl, ho⟩))).trans ?_
  rw [← List.map_flatten, hc, List.map_map]
  rfl

/-- **C82.** `robust_min_risk` solves the problem of every date with that date's whitener but with the volatilities of
the *first* date, for every way the pool cuts the work. -/
theorem C82_robust_stale {β : Type} (solve : RiskParams n → β) (L0 : Mat n) (sigma0 : Vec n) (Ls : List (Mat n))
    (chunks : List (List (Option (Mat n)))) (hc : chunks.flatten = minRiskTasks Ls) :
    robustPool solve ⟨L0, sigma0⟩ chunks = Ls.map fun L => solve ⟨L, sigma0⟩ := by
  rw [minRiskTasks_eq] at hc
  have hmem : ∀ o ∈ chunks.flatten, o.isSome := by
    intro o ho
    rw [hc, List.mem_map] at ho
    obtain ⟨L, _, rfl⟩ := ho
    rfl
  unfold robustPool runPool
  have key : ∀ (l : List (Option (Mat n))) (st : RiskParams n), st.sigma = sigma0 → (∀ o ∈ l, o.isSome) →
      runChunk solve (fun st o => match o with
        | some L => solveMinRiskParams st L
        | none => st) st l = l.map fun o => solve ⟨o.getD 0, sigma0⟩ := by
    intro l
    induction l with
    | nil => intro st _ _; rfl
    | cons o l ih =>
      intro st hst hl
      cases o with
      | none => exact absurd (hl none (by simp)) (by simp)
      | some L =>
        have he : solveMinRiskParams st L = ⟨L, sigma0⟩ := by
          unfold solveMinRiskParams
          rw [Option.getD_none, hst]
        unfold runChunk
        dsimp only
        rw [he, ih _ rfl fun o ho => hl o (List.mem_cons_of_mem _ ho)]
        rfl
  refine (congrArg List.flatten (List.map_congr_left fun l hl =>
    key l _ rfl fun o ho => hmem o (List.mem_flatten.2 ⟨l, hl, ho⟩))).trans ?_
  rw [← List.map_flatten, hc, List.map_map]
  rfl

/-- The chunks of three tasks in twos. -/
example (A B C : Mat n) : ([[some A, some B], [some C]] : List (List (Option (Mat n)))).flatten = minRiskTasks [A, B, C] := by
  simp [minRiskTasks_eq]

end CovPred
