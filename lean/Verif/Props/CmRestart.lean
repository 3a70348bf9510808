import Verif.Props.Restart
import Verif.Props.CmForgetting
import Verif.Props.CmForgettingExample

/-
Property C209: CM-IEWMA on a history that starts later.
-/
set_option linter.unusedSectionVars false
namespace CovPred
open Filter

variable {n : ℕ} {L : Type} [DecidableEq L]

/-- one expert, without the factor `1 + lamda` -/
private theorem row_later (hn : 0 < n) {mv mc : ℕ} (hmv : 0 < mv) (hmc : 0 < mc) {p : ℝ × ℝ} (hp : 0 < p.1 ∧ 0 < p.2) {M v0 d0 : ℝ} (hM : 0 ≤ M)
    (hv0 : 0 < v0) (hd0 : 0 < d0) :
    ∃ K B H : ℝ, 0 < H ∧ ∀ (x : ℕ → Vec n) (k : ℕ), (∃ s < mv, x s ≠ 0) → (∃ s < mv, x (s + k) ≠ 0) → ∀ T,
      (∀ t < T + k, ∀ i, |x t i| ≤ M) →
      (∀ t < T + k, mv - 1 ≤ t → ∀ i, v0 ≤ vol (cmArgs mv mc p) x t i) →
      (∀ t < T, mv - 1 ≤ t → ∀ i, v0 ≤ vol (cmArgs mv mc p) (fun t => x (t + k)) t i) →
      (∀ t < T + k, mv + mc - 2 ≤ t → ∀ i, d0 ≤ covAt (cmArgs mv mc p) (t + 1) x (t + 1 - mv) (i, i)) →
      (∀ t < T, mv + mc - 2 ≤ t → ∀ i, d0 ≤ covAt (cmArgs mv mc p) (t + 1) (fun t => x (t + k)) (t + 1 - mv) (i, i)) →
      ∀ t < T, mv + mc - 2 ≤ t → ∀ i j,
        |rowIewma mv mc p (fun t => x (t + k)) t i j - rowIewma mv mc p x (t + k) i j| ≤ K * (2 : ℝ) ^ (-((t - (mv - 1) : ℕ) : ℝ) / H) ∧
        |rowIewma mv mc p x (t + k) i j| ≤ B ∧ |rowIewma mv mc p (fun t => x (t + k)) t i j| ≤ B := by
  have : Nonempty (Fin n) := ⟨⟨0, hn⟩⟩
  have hH1 : p.1 < p.1 + p.2 := by linarith [hp.2]
  have hH2 : p.2 < p.1 + p.2 := by linarith [hp.1]
  obtain ⟨K, B, h⟩ := restart_bounded (H := p.1 + p.2) hp.1 hp.2 hp.1 hp.2 hH1 hH2 hH1 hH2 hM hv0 hd0
  refine ⟨K, B, p.1 + p.2, by linarith [hp.1, hp.2], ?_⟩
  intro x k hx hz T hb hv hvz hc hcz t ht hmt i j
  have hinc : Increasing (t + 1 + k) (fun k : ℕ => k) := fun a b hab _ => hab
  have hlen : ∀ N, (rowsFrom (cmArgs mv mc p).minPeriodsVola N).length = N - (mv - 1) := fun N => by
    rw [rowsFrom_eq_drop, List.length_drop, List.length_range]
    simp [cmArgs]
  have hcov : ∀ (u : ℕ → Vec n) (N T' : ℕ), (∃ s < mv, u s ≠ 0) → N ≤ T' →
      (∀ t < T', mv + mc - 2 ≤ t → ∀ i, d0 ≤ covAt (cmArgs mv mc p) (t + 1) u (t + 1 - mv) (i, i)) →
      ∀ j ∈ rowsFrom (cmArgs mv mc p).minPeriodsCov (rowsFrom (cmArgs mv mc p).minPeriodsVola N).length, ∀ i,
        d0 ≤ covAt (cmArgs mv mc p) N u j (i, i) := by
    intro u N T' hu hN hcu k hk c
    rw [mem_rowsFrom, hlen] at hk
    have hk2 : (mc : Int) - 1 ≤ k := hk.2
    have h4 := hcu (k + mv - 1) (by omega) (by omega) c
    rw [show k + mv - 1 + 1 - mv = k by omega] at h4
    rw [covAt_cm_rows (T' := k + mv - 1 + 1) hp hu (by omega) (by omega)]
    exact h4
  obtain ⟨rows, rows', m, m', w, w', S, S', r1, r2, h3⟩ := h ℕ (Fin n) (cmArgs mv mc p) (cmArgs_valid hp) rfl rfl rfl rfl rfl (t + 1) k (fun k => k) x
    (distinct_of_increasing hinc) (by omega) (by simp only [cmArgs]; omega) (fun u hu => hb u (by omega))
    (fun u hu hu2 => hv u (by omega) (by simp only [cmArgs] at hu2; omega))
    (fun u hu hu2 => hvz u (by omega) (by simp only [cmArgs] at hu2; omega))
    (hcov x _ (T + k) hx (by omega) hc) (hcov _ _ T hz (by omega) hcz)
  obtain ⟨hm, e2⟩ := row_of_run hn hmv hmc hp hmt k hz r2
  rw [show t + 1 + k = (t + k) + 1 by omega] at r1
  obtain ⟨_, e1⟩ := row_of_run hn hmv hmc hp (t := t + k) (by omega) 0 hx r1
  rw [e1, e2]
  have h4 := (h3 t hm).2.2.2 i j
  rw [show ((cmArgs mv mc p).minPeriodsVola - 1).toNat = mv - 1 by simp [cmArgs]] at h4
  exact h4

/-- **C209.** What a longer history changes in CM-IEWMA. Fix the arguments (`lamda ≥ 0`) and bounds (`Spec/CmForgetting`). For every tolerance `e` there is a
number `N` such that, for any history of any length, any number `k` of rows left out at its start, both histories being within the bounds, and any successful
runs with exact solvers, the predictions for every row from row `N` of the shorter history on (with a full window of `W` rows) differ by less than `e` in
every entry. -/
theorem C209_cm_later_start (hn : 0 < n) (label : XR × XR → L) {pairs : List (ℝ × ℝ)} (hpairs : ∀ p ∈ pairs, 0 < p.1 ∧ 0 < p.2) {mv mc : ℕ} (hmv : 0 < mv)
    (hmc : 0 < mc) (W : ℕ) {lamda : ℝ} (hl : 0 ≤ lamda) {M v0 d0 p0 g0 : ℝ} (hM : 0 ≤ M) (hv0 : 0 < v0) (hd0 : 0 < d0) (hp0 : 0 < p0) (hg0 : 0 < g0)
    {e : ℝ} (he : 0 < e) :
    ∃ N : ℕ, ∀ (τ : Type) [LinearOrder τ] (solvers solvers' : Solvers n) (T k : ℕ) (tm : ℕ → τ) (x : ℕ → Vec n) (d d' : Dict τ (Mat n)),
      CmSetup solvers pairs mv mc W (T + k) tm x → CmSetup solvers' pairs mv mc W T (fun t => tm (t + k)) (fun t => x (t + k)) →
      (∀ K, (solvers K).Exact) → (∀ K, (solvers' K).Exact) →
      CmBounds label pairs mv mc W lamda (T + k) x M v0 d0 p0 g0 → CmBounds label pairs mv mc W lamda T (fun t => x (t + k)) M v0 d0 p0 g0 →
      cmIewma label solvers (pairs.map fun p => (XR.fin p.1, XR.fin p.2)) (rowDict (T + k) tm x) mv mc lamda W = .ok d →
      cmIewma label solvers' (pairs.map fun p => (XR.fin p.1, XR.fin p.2)) (rowDict T (fun t => tm (t + k)) fun t => x (t + k)) mv mc lamda W = .ok d' →
      ∀ t, N ≤ t → mv + mc - 2 + W ≤ t → t < T →
        ∃ S S', d.lookup (tm (t + k)) = some S ∧ d'.lookup (tm (t + k)) = some S' ∧ ∀ i j, |S' i j - S i j| < e := by
  by_cases hne : pairs = []
  · exact ⟨0, fun τ _ solvers _ T k tm x _ _ h => absurd hne h.pairs_ne⟩
  have hK : 0 < nExperts label pairs := by
    obtain ⟨p, ps, rfl⟩ := List.exists_cons_of_ne_nil hne
    exact expertPairs_pos label p ps
  choose Kc B H hH hrow using fun i : Fin (nExperts label pairs) =>
    row_later hn hmv hmc (hpairs _ (expertPair_mem label (pairs := pairs) i)) hM hv0 hd0
  obtain ⟨A, hA⟩ : ∃ A, ∀ i, (1 + lamda) * B i ≤ A :=
    ⟨∑ i, |(1 + lamda) * B i|, fun i => (le_abs_self _).trans
      (Finset.single_le_sum (f := fun i => |(1 + lamda) * B i|) (fun _ _ => abs_nonneg _) (Finset.mem_univ i))⟩
  obtain ⟨δ, hδ, hblend⟩ := blend_uniform (n := n) hK W (A := A) (M := M) hp0 hg0 he
  have hN : ∀ᶠ m : ℕ in atTop, ∀ i, (1 + lamda) * (Kc i * (2 : ℝ) ^ (-(m : ℝ) / H i)) ≤ δ := by
    refine eventually_all.2 fun i => ?_
    have h1 : Tendsto (fun m : ℕ => (1 + lamda) * (Kc i * (betaOf (H i)) ^ m)) atTop (nhds ((1 + lamda) * (Kc i * 0))) :=
      ((tendsto_pow_atTop_nhds_zero_of_lt_one (betaOf_pos _).le (betaOf_lt_one (hH i))).const_mul _).const_mul _
    rw [mul_zero, mul_zero] at h1
    refine (h1.eventually (gt_mem_nhds hδ)).mono fun m hm => ?_
    rw [← betaOf_pow]
    exact hm.le
  obtain ⟨N0, hN0⟩ := eventually_atTop.1 hN
  refine ⟨N0 + W + mv, ?_⟩
  intro τ _ solvers solvers' T k tm x d d' hx hz hs hs' bx bz hd hd' t hNt hmt htT
  have hroom : cmWindow mv mc W T = W := by unfold cmWindow; omega
  have hroom' : cmWindow mv mc W (T + k) = W := by unfold cmWindow; omega
  obtain ⟨S, l1, _, _, w, sw, eS, ow⟩ := C150_prediction label hx lamda hd (s := t + k) (by rw [hroom']; omega) (by omega)
  obtain ⟨S', l2, _, _, w', sw', eS', ow'⟩ := C150_prediction label hz lamda hd' (s := t) (by rw [hroom]; exact hmt) htT
  rw [hroom'] at ow
  rw [hroom] at ow'
  -- the shorter history and the rows of the longer one from row `k` on
  have hrows : ∀ i u, mv + mc - 2 ≤ u → u < T → ∀ a b, _ := fun i u h1 h2 a b =>
    hrow i x k hx.awake hz.awake T (fun j hj c => bx.ret j hj c)
      (fun j hj h3 c => bx.vola _ (expertPair_mem label i) j hj h3 c)
      (fun j hj h3 c => bz.vola _ (expertPair_mem label i) j hj h3 c)
      (fun j hj h3 c => bx.moment _ (expertPair_mem label i) j hj h3 c)
      (fun j hj h3 c => bz.moment _ (expertPair_mem label i) j hj h3 c) u h2 h1 a b
  refine ⟨S, S', l1, l2, fun i j => ?_⟩
  have hBx : ∀ i u, mv + mc - 2 + k ≤ u → u < T + k → ∀ a b, |rowIewma mv mc (expertPair label pairs i) x u a b| ≤ B i := by
    intro i u h1 h2 a b
    have h3 := (hrows i (u - k) (by omega) (by omega) a b).2.1
    rwa [Nat.sub_add_cancel (by omega)] at h3
  have h := hblend _ _ (cmWin_inBounds (W := W) hl hA hx bx hd (t := t + k) (fun i u h1 h2 => hBx i u (by omega) h2) (by omega) (by omega))
    (cmWin_inBounds (W := W) hl hA hz bz hd' (fun i u h1 h2 a b => (hrows i u (by omega) h2 a b).2.2) hmt htT)
    (fun u hu c a b => by
      have h4 := cmExpert_close (lamda := lamda) hl c (hrows c (t - W + u) (by omega) (by omega) a b).1
      rw [show t - W + u + k = t + k - W + u by omega] at h4
      exact h4.trans (hN0 _ (by omega) c))
    (fun u hu _ => by
      show x (t - W + u + k) = x (t + k - W + u)
      rw [show t - W + u + k = t + k - W + u by omega])
    w w' (cmWin_optimal (by omega) sw (ow hs)) (cmWin_optimal (by omega) sw' (ow' hs')) i j
  have e1 : ∀ (z : ℕ → Vec n) (u : ℕ), W ≤ u → (cmWinPanel label pairs mv mc lamda z W u).cov W = cmExpert label pairs mv mc lamda z u := fun z u hu => by
    show cmExpert label pairs mv mc lamda z (u - W + W) = _
    rw [Nat.sub_add_cancel hu]
  rw [e1 _ _ (by omega), e1 _ _ (by omega), ← eS, ← eS'] at h
  exact h

namespace CmRestartEx
open CmForgettingEx
open CovPred.CmEx (solvers pairs label)

variable {x : ℕ → Vec 1}

theorem setup (k : ℕ) (hx : ∀ s, x s 0 ≠ 0) {mv mc window T : ℕ} (h1 : 0 < mv) (h2 : 0 < mc) (h3 : 0 < window) (h4 : mv + mc ≤ T) :
    CmSetup solvers pairs mv mc window T (fun t : ℕ => t + k) x :=
  { OnlineMethodEx.setup hx h1 h2 h3 h4 with labels := fun s t h _ => Nat.add_lt_add_right h k }

theorem run (k : ℕ) (hx : ∀ s, x s 0 ≠ 0) {mv mc window T : ℕ} (h1 : 0 < mv) (h2 : 0 < mc) (h3 : 0 < window) (h4 : mv + mc ≤ T) {lamda : ℝ} (hl : 0 ≤ lamda) :
    ∃ D, cmIewma label solvers (pairs.map xr) (rowDict T (fun t : ℕ => t + k) x) mv mc lamda window = .ok D := by
  obtain ⟨D, hD⟩ := OnlineMethodEx.run hx h1 h2 h3 h4 hl
  have h := (C150_success label (OnlineMethodEx.setup hx h1 h2 h3 h4) lamda fun K => ⟨exactSolver_exact, exactSolver_complete⟩).mp ⟨D, hD⟩
  exact (C150_success label (setup k hx h1 h2 h3 h4) lamda fun K => ⟨exactSolver_exact, exactSolver_complete⟩).mpr h

/-- With the arguments of the notebook (63, 63, window 10) for one asset: there is a number of rows after which the predictions from a history and from the
same history without its first `k` rows differ by less than one percent, for all histories with returns between 1 and 2 in absolute value and all `k`. -/
example : ∃ N : ℕ, ∀ (T k : ℕ) (x : ℕ → Vec 1), 126 ≤ T → (∀ s, 1 ≤ |x s 0| ∧ |x s 0| ≤ 2) →
    ∃ d d', cmIewma label solvers (pairs.map xr) (rowDict (T + k) (fun t : ℕ => t) x) 63 63 (1 / 20) 10 = .ok d ∧
      cmIewma label solvers (pairs.map xr) (rowDict T (fun t : ℕ => t + k) fun t => x (t + k)) 63 63 (1 / 20) 10 = .ok d' ∧
      ∀ t, N ≤ t → 134 ≤ t → t < T →
        ∃ S S', d.lookup (t + k) = some S ∧ d'.lookup (t + k) = some S' ∧ |S' 0 0 - S 0 0| < 1 / 100 := by
  have hl : (0 : ℝ) ≤ 1 / 20 := by norm_num
  obtain ⟨N, h⟩ := C209_cm_later_start (n := 1) (by norm_num) label (pairs := pairs) FmEx.pos (mv := 63) (mc := 63) (by norm_num) (by norm_num) 10
    (lamda := 1 / 20) hl (M := 2) (v0 := 1) (d0 := 1 / 4) (p0 := 1) (g0 := 1 / (4 * (1 + 1 / 20))) (by norm_num) (by norm_num) (by norm_num) (by norm_num)
    (by norm_num) (e := 1 / 100) (by norm_num)
  refine ⟨N, fun T k x hT hx => ?_⟩
  have hz : ∀ s, 1 ≤ |(fun t => x (t + k)) s 0| ∧ |(fun t => x (t + k)) s 0| ≤ 2 := fun s => hx (s + k)
  obtain ⟨d, hd⟩ := OnlineMethodEx.run (ne hx) (mv := 63) (mc := 63) (window := 10) (T := T + k) (by norm_num) (by norm_num) (by norm_num) (by omega) hl
  obtain ⟨d', hd'⟩ := run k (ne hz) (mv := 63) (mc := 63) (window := 10) (T := T) (by norm_num) (by norm_num) (by norm_num) (by omega) hl
  refine ⟨d, d', hd, hd', fun t h1 h2 h3 => ?_⟩
  obtain ⟨S, S', l1, l2, hS⟩ := h ℕ solvers solvers T k (fun t => t) x d d'
    (OnlineMethodEx.setup (ne hx) (by norm_num) (by norm_num) (by norm_num) (by omega))
    (setup k (ne hz) (by norm_num) (by norm_num) (by norm_num) (by omega)) (fun K => exactSolver_exact) (fun K => exactSolver_exact)
    (bounds hx (by norm_num) (by norm_num) (by norm_num) hl (T + k)) (bounds hz (by norm_num) (by norm_num) (by norm_num) hl T) hd hd' t h1 h2 h3
  exact ⟨S, S', l1, l2, hS 0 0⟩

end CmRestartEx

end CovPred
