import Verif.Spec.PortfolioRun
import Verif.Props.PortfolioExist

/-
Lemmas for `Props/PortfolioRun.lean`.
-/
namespace CovPred
open Matrix
set_option linter.unusedSectionVars false

variable {τ : Type} [DecidableEq τ] {n : ℕ}

/-! ### One date -/

theorem lookup_symm {covs : List (Dict τ (Mat n))} (h : AllSymmetric covs) {c : Dict τ (Mat n)} (hc : c ∈ covs) {t : τ} {S : Mat n}
    (hS : c.lookup t = some S) : Sᵀ = S := by
  ext i j
  exact h c hc t S hS j i

theorem dayWeights_solves {cvx : Cvx n} (hx : cvx.Exact) (hs : cvx.Solves) (hn : 0 < n) {st : Strategy τ n} (hst : st.RiskOnly) {S L : Mat n}
    (hS : S.PosDef) (hL : getLInv S = .ok L) (mu rho : Option (Vec n)) :
    (∃ w, dayWeights cvx st ⟨S, L, mu, rho⟩ = .ok w) ↔ st.Room := by
  cases st with
  | eqWeighted => exact ⟨fun _ => trivial, fun _ => ⟨_, rfl⟩⟩
  | minRisk cons =>
    unfold dayWeights Strategy.Room
    simp only [bind_ok_iff]
    constructor
    · rintro ⟨_, w, hw, -⟩
      exact ⟨w, (hx.minRisk _ _ _ hw).1⟩
    · intro h
      obtain ⟨w, hw, -⟩ := (C159_min_risk hS hL cons).1 h
      obtain ⟨w', hw'⟩ := hs.minRisk cons L ⟨w, hw⟩
      exact ⟨_, w', hw', rfl⟩
  | maxDiverse cons =>
    unfold dayWeights Strategy.Room
    dsimp only
    cases hM : cons.upperBound with
    | none =>
      constructor
      · rintro ⟨_, h⟩; cases h
      · rintro ⟨_, h, -⟩; cases h
    | some M =>
      simp only [bind_ok_iff]
      constructor
      · rintro ⟨_, z, hz, -⟩
        refine ⟨M, rfl, (C159_max_diverse hS hL M).2 ?_⟩
        have h1 := hx.maxDiverse _ _ _ _ hz
        have hroom : 1 ≤ n * M := by
          have h2 := (C83_max_diverse hS hL M z h1).1
          have : ∑ i, normalizeW z i ≤ ∑ _i : Fin n, M := Finset.sum_le_sum fun i _ => h2.upper i
          rw [h2.sum_one, Finset.sum_const, Finset.card_univ, Fintype.card_fin, nsmul_eq_mul] at this
          exact this
        exact (C159_max_diverse hS hL M).1 hroom
      · rintro ⟨M', h, hM'⟩
        cases h
        obtain ⟨z, hz, -⟩ := (C159_max_diverse hS hL M).1 hM'
        obtain ⟨z', hz'⟩ := hs.maxDiverse M L _ ⟨z, hz⟩
        exact ⟨_, z', hz', rfl⟩
  | riskParity =>
    unfold dayWeights
    simp only [bind_ok_iff]
    refine ⟨fun _ => trivial, fun _ => ?_⟩
    obtain ⟨w, hw, -⟩ := C159_risk_parity hn hS hL
    obtain ⟨w', hw'⟩ := hs.riskParity L ⟨w, hw⟩
    exact ⟨_, w', hw', rfl⟩
  | meanVariance cons s rhos => exact hst.elim

/-! ### Rescaled predictions, reordered assets -/

theorem quad_rel (S : Mat n) (k : ℝ) (e : Equiv.Perm (Fin n)) (v : Vec n) :
    (fun i => v (e i)) ⬝ᵥ ((fun i j => k * S (e i) (e j) : Mat n) *ᵥ fun i => v (e i)) = k * (v ⬝ᵥ (S *ᵥ v)) := by
  have h1 : ((fun i j => k * S (e i) (e j) : Mat n) *ᵥ fun i => v (e i)) = fun i => k * (S *ᵥ v) (e i) := by
    funext i
    show ∑ j, k * S (e i) (e j) * v (e j) = k * ∑ j, S (e i) j * v j
    rw [Equiv.sum_comp e fun j => k * S (e i) j * v j, Finset.mul_sum]
    exact Finset.sum_congr rfl fun j _ => by ring
  rw [h1]
  show ∑ i, v (e i) * (k * (S *ᵥ v) (e i)) = k * ∑ i, v i * (S *ᵥ v) i
  rw [Equiv.sum_comp e fun i => v i * (k * (S *ᵥ v) i), Finset.mul_sum]
  exact Finset.sum_congr rfl fun j _ => by ring

theorem std_rel (S : Mat n) {k : ℝ} (hk : 0 < k) (e : Equiv.Perm (Fin n)) (v : Vec n) :
    predictedStd (fun i j => k * S (e i) (e j)) (fun i => v (e i)) = Real.sqrt k * predictedStd S v := by
  unfold predictedStd
  rw [quad_rel, Real.sqrt_mul hk.le]

theorem posDef_rel {S : Mat n} (hS : S.PosDef) {k : ℝ} (hk : 0 < k) (e : Equiv.Perm (Fin n)) :
    Matrix.PosDef (fun i j => k * S (e i) (e j) : Mat n) := by
  refine Matrix.PosDef.of_dotProduct_mulVec_pos ?_ fun v hv => ?_
  · ext i j
    have h : S (e j) (e i) = S (e i) (e j) := congrFun (congrFun (posDef_symm hS) (e i)) (e j)
    show k * S (e j) (e i) = k * S (e i) (e j)
    rw [h]
  · have hv' : (fun i => v (e.symm i)) ≠ 0 := by
      intro h
      apply hv
      funext i
      have := congrFun h (e i)
      simpa using this
    have h := quad_rel S k e fun i => v (e.symm i)
    simp only [Equiv.symm_apply_apply] at h
    have h2 := hS.dotProduct_mulVec_pos hv'
    simp only [star_trivial] at h2 ⊢
    rw [h]
    exact mul_pos hk h2

theorem WithinLimits_perm (a : ExtraCons) (e : Equiv.Perm (Fin n)) {w : Vec n} (h : WithinLimits a w) :
    WithinLimits a fun i => w (e i) := by
  obtain ⟨h1, h2, h3, h4⟩ := h
  refine ⟨by rw [Equiv.sum_comp e w]; exact h1, fun s hs => ?_, fun u hu i => h3 u hu _, fun l hl i => h4 l hl _⟩
  rw [Equiv.sum_comp e fun i => |w i|]
  exact h2 s hs

theorem normalize_perm (e : Equiv.Perm (Fin n)) {r : ℝ} (hr : r ≠ 0) (z : Vec n) :
    normalizeW (fun i => r * z (e i)) = fun i => normalizeW z (e i) := by
  funext i
  unfold normalizeW
  rw [← Finset.mul_sum, Equiv.sum_comp e z, mul_div_mul_left _ _ hr]

/-- exact solvers give for the rescaled, reordered covariance the reordered weights -/
theorem dayWeights_rel {cvx cvx' : Cvx n} (hx : cvx.Exact) (hx' : cvx'.Exact) (hn : 0 < n) {st : Strategy τ n} (hst : st.RiskOnly)
    (e : Equiv.Perm (Fin n)) {k : ℝ} (hk : 0 < k) {S S' L L' : Mat n} (hS' : S' = fun i j => k * S (e i) (e j))
    (hS : S.PosDef) (hL : getLInv S = .ok L) (hL' : getLInv S' = .ok L') (mu rho mu' rho' : Option (Vec n)) {w w' : List ℝ}
    (hw : dayWeights cvx st ⟨S, L, mu, rho⟩ = .ok w) (hw' : dayWeights cvx' st ⟨S', L', mu', rho'⟩ = .ok w') :
    ∃ v : Vec n, w = List.ofFn v ∧ w' = List.ofFn fun i => v (e i) := by
  have hP' : S'.PosDef := hS' ▸ posDef_rel hS hk e
  have hsk : 0 < Real.sqrt k := Real.sqrt_pos.2 hk
  have hback : ∀ v : Vec n, predictedStd S' v = Real.sqrt k * predictedStd S fun i => v (e.symm i) := by
    intro v
    rw [← std_rel S hk e, hS']
    congr 1
    funext i
    simp
  cases st with
  | eqWeighted =>
    cases hw
    cases hw'
    exact ⟨fun _ => 1 / n, rfl, rfl⟩
  | minRisk cons =>
    unfold dayWeights at hw hw'
    rw [bind_ok_iff] at hw hw'
    obtain ⟨v, hv, h⟩ := hw
    obtain ⟨v', hv', h'⟩ := hw'
    cases h
    cases h'
    obtain ⟨c1, o1⟩ := hx.minRisk _ _ _ hv
    obtain ⟨c2, o2⟩ := hx'.minRisk _ _ _ hv'
    obtain ⟨u, -, huniq⟩ := (C159_min_risk hP' hL' cons).1 ⟨v', c2⟩
    have e1 := huniq v' ⟨c2, o2⟩
    have e2 := huniq (fun i => v (e i)) ⟨WithinLimits_perm cons e c1, fun y hy => ?_⟩
    · exact ⟨v, rfl, by rw [e1, e2]⟩
    · rw [riskExpr_eq hP' hL', riskExpr_eq hP' hL', hback, hback]
      have := o1 _ (WithinLimits_perm cons e.symm hy)
      rw [riskExpr_eq hS hL, riskExpr_eq hS hL] at this
      simp only [Equiv.apply_symm_apply]
      exact mul_le_mul_of_nonneg_left this hsk.le
  | maxDiverse cons =>
    unfold dayWeights at hw hw'
    dsimp only at hw hw'
    cases hM : cons.upperBound with
    | none => rw [hM] at hw; cases hw
    | some M =>
      rw [hM] at hw hw'
      dsimp only at hw hw'
      rw [bind_ok_iff] at hw hw'
      obtain ⟨z, hz, h⟩ := hw
      obtain ⟨z', hz', h'⟩ := hw'
      cases h
      cases h'
      obtain ⟨f1, o1⟩ := hx.maxDiverse _ _ _ _ hz
      have opt' := hx'.maxDiverse _ _ _ _ hz'
      have hsig : ∀ i, Real.sqrt (S' i i) = Real.sqrt k * Real.sqrt (S (e i) (e i)) := by
        intro i; rw [hS']; exact Real.sqrt_mul hk.le _
      have hroom : 1 ≤ n * M := by
        have h2 := (C83_max_diverse hS hL M z ⟨f1, o1⟩).1
        have : ∑ i, normalizeW z i ≤ ∑ _i : Fin n, M := Finset.sum_le_sum fun i _ => h2.upper i
        rw [h2.sum_one, Finset.sum_const, Finset.card_univ, Fintype.card_fin, nsmul_eq_mul] at this
        exact this
      obtain ⟨u, -, huniq⟩ := (C159_max_diverse hP' hL' M).1 hroom
      have e1 := huniq z' opt'
      have hf : DiverseFeasible M (fun i => Real.sqrt (S' i i)) fun i => (Real.sqrt k)⁻¹ * z (e i) := by
        refine ⟨fun i => mul_nonneg (inv_nonneg.2 hsk.le) (f1.nonneg _), fun i => ?_, ?_⟩
        · rw [← Finset.mul_sum, Equiv.sum_comp e z]
          have := mul_le_mul_of_nonneg_left (f1.upper (e i)) (inv_nonneg.2 hsk.le)
          linarith
        · have : ∀ i, Real.sqrt (S' i i) * ((Real.sqrt k)⁻¹ * z (e i)) = Real.sqrt (S (e i) (e i)) * z (e i) := by
            intro i; rw [hsig]; field_simp
          rw [Finset.sum_congr rfl fun i _ => this i, Equiv.sum_comp e fun i => Real.sqrt (S i i) * z i]
          exact f1.unit
      have e2 := huniq (fun i => (Real.sqrt k)⁻¹ * z (e i)) ⟨hf, fun y hy => ?_⟩
      · refine ⟨normalizeW z, rfl, ?_⟩
        rw [e1, ← e2, normalize_perm e (inv_ne_zero hsk.ne')]
      · have hfy : DiverseFeasible M (fun i => Real.sqrt (S i i)) fun i => Real.sqrt k * y (e.symm i) := by
          refine ⟨fun i => mul_nonneg hsk.le (hy.nonneg _), fun i => ?_, ?_⟩
          · rw [← Finset.mul_sum, Equiv.sum_comp e.symm y]
            have := mul_le_mul_of_nonneg_left (hy.upper (e.symm i)) hsk.le
            linarith
          · have : ∀ i, Real.sqrt (S i i) * (Real.sqrt k * y (e.symm i)) = Real.sqrt (S' (e.symm i) (e.symm i)) * y (e.symm i) := by
              intro i; rw [hsig, Equiv.apply_symm_apply]; ring
            rw [Finset.sum_congr rfl fun i _ => this i, Equiv.sum_comp e.symm fun i => Real.sqrt (S' i i) * y i]
            exact hy.unit
        have := o1 _ hfy
        rw [riskExpr_eq hS hL, riskExpr_eq hS hL, predictedStd_smul S _ hsk.le] at this
        rw [riskExpr_eq hP' hL', riskExpr_eq hP' hL', predictedStd_smul S' _ (inv_nonneg.2 hsk.le), hback, hback,
          ← mul_assoc, inv_mul_cancel₀ hsk.ne', one_mul]
        simp only [Equiv.apply_symm_apply]
        exact this
  | riskParity =>
    unfold dayWeights at hw hw'
    rw [bind_ok_iff] at hw hw'
    obtain ⟨v, hv, h⟩ := hw
    obtain ⟨v', hv', h'⟩ := hw'
    cases h
    cases h'
    have o1 := hx.riskParity _ _ hv
    have o2 := hx'.riskParity _ _ hv'
    obtain ⟨hpos, hrc⟩ := (C84_optimal_iff hn hS hL v).1 o1
    have o3 : ParityOptimal L' fun i => (Real.sqrt k)⁻¹ * v (e i) := by
      rw [C84_optimal_iff hn hP' hL']
      refine ⟨fun i => mul_pos (inv_pos.2 hsk) (hpos _), fun i => ?_⟩
      have hm : (S' *ᵥ fun i => (Real.sqrt k)⁻¹ * v (e i)) i = (Real.sqrt k)⁻¹ * (k * (S *ᵥ v) (e i)) := by
        rw [hS']
        show ∑ j, k * S (e i) (e j) * ((Real.sqrt k)⁻¹ * v (e j)) = (Real.sqrt k)⁻¹ * (k * ∑ j, S (e i) j * v j)
        rw [Equiv.sum_comp e fun j => k * S (e i) j * ((Real.sqrt k)⁻¹ * v j), Finset.mul_sum, Finset.mul_sum]
        exact Finset.sum_congr rfl fun j _ => by ring
      rw [hm, ← hrc (e i)]
      have hkk : (Real.sqrt k)⁻¹ * (Real.sqrt k)⁻¹ * k = 1 := by
        rw [← mul_inv, Real.mul_self_sqrt hk.le, inv_mul_cancel₀ hk.ne']
      calc (Real.sqrt k)⁻¹ * v (e i) * ((Real.sqrt k)⁻¹ * (k * (S *ᵥ v) (e i)))
          = ((Real.sqrt k)⁻¹ * (Real.sqrt k)⁻¹ * k) * (v (e i) * (S *ᵥ v) (e i)) := by ring
        _ = v (e i) * (S *ᵥ v) (e i) := by rw [hkk, one_mul]
    have e1 := C84_unique hn hP' hL' _ _ o3 o2
    refine ⟨normalizeW v, rfl, ?_⟩
    rw [e1, normalize_perm e (inv_ne_zero hsk.ne')]
  | meanVariance cons s rhos => exact hst.elim

end CovPred
