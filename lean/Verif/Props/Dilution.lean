import Verif.Model.Trading
import Verif.Lemmas.LinAlg
import Verif.Props.ExpUtils
import Mathlib.Tactic

/-
Property C53: cash dilution and volatility control (trading_model.py).
-/
namespace CovPred
open Matrix
set_option linter.unusedSectionVars false

variable {n : ℕ}

/-- the predicted standard deviation of the weights `w` over one row -/
noncomputable def predictedStd (Sigma : Mat n) (w : Vec n) : ℝ := Real.sqrt (w ⬝ᵥ (Sigma *ᵥ w))

private theorem firstN_map (c x : ℝ) (w : List ℝ) (h : n ≤ w.length) :
    firstN n (w.map (c * ·) ++ [x]) = c • firstN n w := by
  funext i
  unfold firstN
  have hi : i.1 < w.length := lt_of_lt_of_le i.2 h
  rw [List.getElem?_append_left (by simpa using hi), List.getElem?_map]
  change _ = c * (w[i.1]?).getD 0
  rw [List.getElem?_eq_getElem hi]
  rfl

private theorem sum_map_mul (c : ℝ) (w : List ℝ) : (w.map (c * ·)).sum = c * w.sum := by
  induction w with
  | nil => simp
  | cons a w ih => simp [ih, mul_add]

private theorem std_smul (Sigma : Mat n) (w : Vec n) {c : ℝ} (hc : 0 ≤ c) :
    predictedStd Sigma (c • w) = c * predictedStd Sigma w := by
  unfold predictedStd
  rw [Matrix.mulVec_smul, dotProduct_smul, smul_dotProduct, smul_eq_mul, smul_eq_mul, ← mul_assoc,
    Real.sqrt_mul (mul_self_nonneg c), Real.sqrt_mul_self hc]

/-- **C53.** A diluted row of a portfolio with positive predicted risk has predicted annual volatility `sigma_des`, and
is fully invested if the portfolio was; the proportions of the assets are unchanged. -/
theorem C53_dilute_row (Sigma : Mat n) (w : List ℝ) (hw : w.length = n) {sigmaDes : ℝ} (hs : 0 ≤ sigmaDes)
    (hrisk : 0 < predictedStd Sigma (firstN n w)) :
    Real.sqrt 252 * predictedStd Sigma (firstN n (diluteRow sigmaDes Sigma w)) = sigmaDes ∧
    (w.sum = 1 → (diluteRow sigmaDes Sigma w).sum = 1) ∧
    (diluteRow sigmaDes Sigma w).length = n + 1 ∧
    ∃ theta : ℝ, 0 ≤ theta ∧ firstN n (diluteRow sigmaDes Sigma w) = theta • firstN n w := by
  unfold diluteRow
  dsimp only
  have e : Real.sqrt (firstN n w ⬝ᵥ (Sigma *ᵥ firstN n w)) = predictedStd Sigma (firstN n w) := rfl
  rw [e]
  set sd := predictedStd Sigma (firstN n w)
  have hth : 0 ≤ Real.sqrt (1 / 252) * (sigmaDes / sd) := by positivity
  rw [firstN_map _ _ _ hw.ge]
  refine ⟨?_, ?_, ?_, Real.sqrt (1 / 252) * (sigmaDes / sd), hth, rfl⟩
  · rw [std_smul _ _ hth]
    have h252 : Real.sqrt 252 * Real.sqrt (1 / 252) = 1 := by
      rw [← Real.sqrt_mul (by norm_num)]; norm_num
    calc Real.sqrt 252 * (Real.sqrt (1 / 252) * (sigmaDes / sd) * sd)
        = (Real.sqrt 252 * Real.sqrt (1 / 252)) * (sigmaDes / sd * sd) := by ring
      _ = sigmaDes := by rw [h252, one_mul, div_mul_cancel₀ _ hrisk.ne']
  · intro h1
    rw [List.sum_append, sum_map_mul, h1]
    simp
  · simp [hw]

/-- **C53.** `dilute_with_cash` treats every row by its own covariance. -/
theorem C53_dilute (s : Trader n) (hd : s.diluted = false) (sigmaDes : ℝ) (hlen : s.sigmas.length = s.ws.length) :
    ∃ wd, (s.diluteWithCash sigmaDes).wsDiluted = some wd ∧ wd.length = s.ws.length ∧
      ∀ t (h1 : t < wd.length) (h2 : t < s.sigmas.length) (h3 : t < s.ws.length),
        wd[t] = diluteRow sigmaDes s.sigmas[t] s.ws[t] := by
  unfold Trader.diluteWithCash
  rw [if_neg (by simp [hd])]
  refine ⟨_, rfl, by simp [hlen], ?_⟩
  intro t h1 h2 h3
  rw [List.getElem_zipWith]

/-- **C53.** A second call does nothing at all, also with another target. -/
theorem C53_second_call (s : Trader n) (x y : ℝ) : (s.diluteWithCash x).diluteWithCash y = s.diluteWithCash x := by
  have h : (s.diluteWithCash x).diluted = true := by
    unfold Trader.diluteWithCash
    split_ifs with h
    · exact h
    · rfl
  conv_lhs => unfold Trader.diluteWithCash
  rw [show (if s.diluted = true then s else { s with
    wsDiluted := some (List.zipWith (diluteRow x) s.sigmas s.ws), diluted := true }) = s.diluteWithCash x from rfl, if_pos h]

/-- **C53.** A `vol_cont` row has predicted standard deviation `sigma_des * sqrt(adjust_factor / 252)` per row, if the
objective value is the predicted standard deviation of the undiluted row, and is fully invested. So the target scales
with the square root of `adjust_factor`, while the target of `dilute_with_cash` does not depend on it. -/
theorem C53_vol_cont_row (Sigma : Mat n) (w : List ℝ) (hw : w.length = n) {sigmaDes a : ℝ} (hs : 0 ≤ sigmaDes)
    (hrisk : 0 < predictedStd Sigma (firstN n w)) :
    predictedStd Sigma (firstN n (volContRow a sigmaDes w (predictedStd Sigma (firstN n w))))
      = sigmaDes * Real.sqrt a / Real.sqrt 252 ∧
    (w.sum = 1 → (volContRow a sigmaDes w (predictedStd Sigma (firstN n w))).sum = 1) := by
  unfold volContRow
  dsimp only
  rw [firstN_map _ _ _ hw.ge]
  set sd := predictedStd Sigma (firstN n w)
  have hth : 0 ≤ 1 - (1 - sigmaDes * Real.sqrt a / Real.sqrt 252 / sd) := by
    have : 0 ≤ sigmaDes * Real.sqrt a / Real.sqrt 252 / sd := by positivity
    linarith
  constructor
  · rw [std_smul _ _ hth]
    change _ * sd = _
    field_simp
    ring
  · intro h1
    rw [List.sum_append, sum_map_mul, h1]
    simp

/-! ### The returns -/

theorem zipWith_ofFn_sum {m : ℕ} (f g : Fin m → ℝ) :
    (List.zipWith (· * ·) (List.ofFn f) (List.ofFn g)).sum = ∑ i, f i * g i := by
  have : List.zipWith (· * ·) (List.ofFn f) (List.ofFn g) = List.ofFn fun i => f i * g i := by
    apply List.ext_getElem <;> simp
  rw [this, List.sum_ofFn]

/-- the returns of given diluted weights, one row -/
noncomputable def dilutedRet (wd : List (List ℝ)) (rf : Option (List ℝ)) (p : Vec n × ℕ) : Except Err ℝ := do
  let c ← cashReturn rf p.2
  npDot ((wd[p.2]?).getD []) (List.ofFn p.1 ++ [c])

/-- the loop in a state that is already diluted (or is asked for undiluted returns) -/
private theorem loop_diluted (rf : Option (List ℝ)) (sd : Option ℝ) (s : Trader n) (wd : List (List ℝ)) (hd : s.diluted = true)
    (hw : s.wsDiluted = some wd) : ∀ (rows : List (Vec n)) (t : ℕ) (acc : List ℝ),
    totalReturnsLoop true sd rf rows t s acc
      = (do
          let l ← (rows.zipIdx t).mapM (dilutedRet wd rf)
          pure (s, acc ++ l)) := by
  intro rows
  induction rows with
  | nil => intro t acc; simp [totalReturnsLoop]; rfl
  | cons r rows ih =>
    intro t acc
    unfold totalReturnsLoop
    simp only [hd, hw, if_true, or_true, pure_bind, List.zipIdx_cons, List.mapM_cons]
    have hrec := ih (t + 1)
    conv_rhs => unfold dilutedRet
    dsimp only
    cases cashReturn rf t with
    | error e => rfl
    | ok c =>
      change (do
        let x ← npDot ((wd[t]?).getD []) (List.ofFn r ++ [c])
        totalReturnsLoop true sd rf rows (t + 1) s (acc ++ [x])) = (do
          let l ← (do
            let x ← npDot ((wd[t]?).getD []) (List.ofFn r ++ [c])
            let l ← (rows.zipIdx (t + 1)).mapM (dilutedRet wd rf)
            pure (x :: l))
          pure (s, acc ++ l))
      cases npDot ((wd[t]?).getD []) (List.ofFn r ++ [c]) with
      | error e => rfl
      | ok x =>
        change totalReturnsLoop true sd rf rows (t + 1) s (acc ++ [x]) = _
        rw [hrec]
        cases ((rows.zipIdx (t + 1)).mapM (dilutedRet wd rf)) with
        | error e => rfl
        | ok l =>
          change Except.ok (s, acc ++ [x] ++ l) = Except.ok (s, acc ++ (x :: l))
          rw [List.append_assoc]; rfl

/-- the returns of given diluted weights -/
noncomputable def dilutedRets (rows : List (Vec n)) (wd : List (List ℝ)) (rf : Option (List ℝ)) : Except Err (List ℝ) :=
  (rows.zipIdx 0).mapM (dilutedRet wd rf)

theorem get_diluted (s : Trader n) (wd : List (List ℝ)) (hd : s.diluted = true) (hw : s.wsDiluted = some wd)
    (sd : Option ℝ) (rf : Option (List ℝ)) :
    s.getTotalReturns true sd rf = (dilutedRets s.returns wd rf).map fun l => { s with rets := l } := by
  unfold Trader.getTotalReturns dilutedRets
  rw [loop_diluted rf sd s wd hd hw]
  cases ((s.returns.zipIdx 0).mapM (dilutedRet wd rf)) with
  | error e => rfl
  | ok l => rfl

/-- The first row of a diluted evaluation dilutes the portfolio. -/
theorem get_first (s : Trader n) (hd : s.diluted = false) (x : ℝ) (rf : Option (List ℝ)) (hT : s.returns ≠ []) :
    s.getTotalReturns true (some x) rf = (s.diluteWithCash x).getTotalReturns true (some x) rf := by
  have hw : ∃ wd, s.diluteWithCash x = { s with wsDiluted := some wd, diluted := true } := by
    unfold Trader.diluteWithCash
    rw [if_neg (by simp [hd])]
    exact ⟨_, rfl⟩
  obtain ⟨wd, hw⟩ := hw
  have hret : (s.diluteWithCash x).returns = s.returns := by rw [hw]
  unfold Trader.getTotalReturns
  rw [hret]
  obtain ⟨r, rows, hr⟩ := List.exists_cons_of_ne_nil hT
  rw [hr]
  unfold totalReturnsLoop
  simp only [hd, hw, if_true, or_true, pure_bind, Bool.false_eq_true, if_false]

/-- **C53.** The diluted returns: the share `theta_t` of the portfolio's return, with
`theta_t = sigma_des / (sqrt(252) * predicted standard deviation)`, and the rest of the risk-free return (0 if none is
given). The risk-free rate of row `t` is the entry at position `t` of the series, whatever follows the first `T` entries. -/
theorem C53_diluted_returns (s : Trader n) (hd : s.diluted = false) (T : ℕ) (hT : 0 < T) (r w : ℕ → Vec n)
    (Sig : ℕ → Mat n) (hr : s.returns = (List.range T).map r) (hS : s.sigmas = (List.range T).map Sig)
    (hw : s.ws = (List.range T).map fun t => List.ofFn (w t)) (x : ℝ) (rf : Option (ℕ → ℝ)) (extra : List ℝ) :
    ∃ s', s.getTotalReturns true (some x) (rf.map fun f => (List.range T).map f ++ extra) = .ok s' ∧
      s'.rets = (List.range T).map fun t =>
        x / (Real.sqrt 252 * predictedStd (Sig t) (w t)) * (w t ⬝ᵥ r t) +
          (1 - x / (Real.sqrt 252 * predictedStd (Sig t) (w t))) * (rf.getD fun _ => 0) t := by
  have hne : s.returns ≠ [] := by
    rw [hr]; simp; omega
  rw [get_first s hd x _ hne]
  have hdw : s.diluteWithCash x = { s with
    wsDiluted := some (List.zipWith (diluteRow x) s.sigmas s.ws), diluted := true } := by
    unfold Trader.diluteWithCash
    rw [if_neg (by simp [hd])]
  rw [get_diluted _ (List.zipWith (diluteRow x) s.sigmas s.ws) (by rw [hdw]) (by rw [hdw])]
  have hwd : List.zipWith (diluteRow x) s.sigmas s.ws = (List.range T).map fun t => diluteRow x (Sig t) (List.ofFn (w t)) := by
    rw [hS, hw, List.zipWith_map, List.zipWith_self]
  rw [hwd]
  have hret : (s.diluteWithCash x).returns = (List.range T).map r := by rw [hdw]; exact hr
  rw [hret]
  have hfirst : ∀ t, firstN n (List.ofFn (w t)) = w t := by
    intro t; funext i; unfold firstN; simp
  have hth : ∀ t, Real.sqrt (1 / 252) * (x / predictedStd (Sig t) (w t)) = x / (Real.sqrt 252 * predictedStd (Sig t) (w t)) := by
    intro t
    rw [one_div, Real.sqrt_inv, ← div_eq_inv_mul, div_div, mul_comm]
  have key : dilutedRets ((List.range T).map r) ((List.range T).map fun t => diluteRow x (Sig t) (List.ofFn (w t)))
      (rf.map fun f => (List.range T).map f ++ extra) = .ok ((List.range T).map fun t =>
        x / (Real.sqrt 252 * predictedStd (Sig t) (w t)) * (w t ⬝ᵥ r t) +
          (1 - x / (Real.sqrt 252 * predictedStd (Sig t) (w t))) * (rf.getD fun _ => 0) t) := by
    unfold dilutedRets
    have hz : ((List.range T).map r).zipIdx 0 = (List.range T).map fun t => (r t, t) := by
      apply List.ext_getElem <;> simp
    rw [hz, List.mapM_map]
    apply mapM_except_ok
    intro t ht
    have ht' := List.mem_range.1 ht
    simp only [Function.comp]
    have hgw : (((List.range T).map fun t => diluteRow x (Sig t) (List.ofFn (w t)))[t]?).getD []
        = diluteRow x (Sig t) (List.ofFn (w t)) := by simp [ht']
    have hgf : cashReturn (rf.map fun f => (List.range T).map f ++ extra) t = .ok ((rf.getD fun _ => 0) t) := by
      cases rf with
      | none => rfl
      | some f =>
        simp only [cashReturn, Option.map_some, Option.getD_some]
        rw [List.getElem?_append_left (by simpa using ht')]
        simp [ht']
    unfold dilutedRet
    dsimp only
    rw [hgf, hgw]
    change npDot (diluteRow x (Sig t) (List.ofFn (w t))) (List.ofFn (r t) ++ [(rf.getD fun _ => 0) t]) = _
    unfold npDot diluteRow
    dsimp only
    rw [if_pos (by simp), hfirst]
    change Except.ok _ = _
    congr 1
    have hm : List.map (fun y => Real.sqrt (1 / 252) * (x / Real.sqrt (w t ⬝ᵥ (Sig t *ᵥ w t))) * y) (List.ofFn (w t))
        = List.ofFn fun i => x / (Real.sqrt 252 * predictedStd (Sig t) (w t)) * w t i := by
      rw [List.map_ofFn]
      congr 1
      funext i
      rw [← hth]
      rfl
    rw [hm, List.zipWith_append (by simp), List.sum_append, zipWith_ofFn_sum]
    congr 1
    · rw [dotProduct, Finset.mul_sum]
      exact Finset.sum_congr rfl fun i _ => mul_assoc _ _ _
    · rw [← hth]
      simp [predictedStd]
  rw [key]
  exact ⟨_, rfl, rfl⟩

private theorem mapM_error_at {A B : Type} (f : A → Except Err B) (e : Err) : ∀ (l : List A) (k : ℕ) (hk : k < l.length),
    (∀ (j : ℕ) (hj : j < k), ∃ b, f (l[j]'(by omega)) = .ok b) → f l[k] = .error e → l.mapM f = .error e := by
  intro l
  induction l with
  | nil => intro k hk; simp at hk
  | cons a l ih =>
    intro k hk h1 h2
    rw [List.mapM_cons]
    cases k with
    | zero =>
      have : f a = .error e := h2
      rw [this]; rfl
    | succ k =>
      obtain ⟨b, hb⟩ := h1 0 (by omega)
      have hb' : f a = .ok b := hb
      rw [hb']
      have := ih k (by simpa using hk) (fun j hj => h1 (j + 1) (by omega)) h2
      change (l.mapM f >>= fun x => pure (b :: x)) = _
      rw [this]; rfl

/-- **C53.** A risk-free series with fewer entries than rows makes the diluted evaluation raise `IndexError`. -/
theorem C53_short_rf (s : Trader n) (hd : s.diluted = false) (T : ℕ) (r w : ℕ → Vec n)
    (Sig : ℕ → Mat n) (hr : s.returns = (List.range T).map r) (hS : s.sigmas = (List.range T).map Sig)
    (hw : s.ws = (List.range T).map fun t => List.ofFn (w t)) (x : ℝ) (rf : List ℝ) (hrf : rf.length < T) :
    s.getTotalReturns true (some x) (some rf) = .error .indexError := by
  have hne : s.returns ≠ [] := by
    rw [hr]; simp; omega
  rw [get_first s hd x _ hne]
  have hdw : s.diluteWithCash x = { s with
    wsDiluted := some (List.zipWith (diluteRow x) s.sigmas s.ws), diluted := true } := by
    unfold Trader.diluteWithCash
    rw [if_neg (by simp [hd])]
  rw [get_diluted _ (List.zipWith (diluteRow x) s.sigmas s.ws) (by rw [hdw]) (by rw [hdw])]
  have hwd : List.zipWith (diluteRow x) s.sigmas s.ws = (List.range T).map fun t => diluteRow x (Sig t) (List.ofFn (w t)) := by
    rw [hS, hw, List.zipWith_map, List.zipWith_self]
  have hret : (s.diluteWithCash x).returns = (List.range T).map r := by rw [hdw]; exact hr
  rw [hwd, hret]
  have key : dilutedRets ((List.range T).map r) ((List.range T).map fun t => diluteRow x (Sig t) (List.ofFn (w t)))
      (some rf) = .error .indexError := by
    unfold dilutedRets
    have hz : ((List.range T).map r).zipIdx 0 = (List.range T).map fun t => (r t, t) := by
      apply List.ext_getElem <;> simp
    rw [hz]
    refine mapM_error_at _ _ _ rf.length (by simpa using hrf) ?_ ?_
    · intro j hj
      have hj' : j < T := by omega
      simp only [List.getElem_map, List.getElem_range]
      unfold dilutedRet cashReturn npDot
      dsimp only
      rw [List.getElem?_eq_getElem hj, List.getElem?_eq_getElem (by simpa using hj')]
      simp only [List.getElem_map, List.getElem_range, Option.getD_some]
      simp only [Bind.bind, Except.bind]
      rw [if_pos (by simp [diluteRow])]
      exact ⟨_, rfl⟩
    · simp only [List.getElem_map, List.getElem_range]
      unfold dilutedRet cashReturn
      dsimp only
      rw [List.getElem?_eq_none (le_refl _)]
      rfl
  rw [key]
  rfl

end CovPred
