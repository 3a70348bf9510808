import Verif.Spec.CmForgetting
import Verif.Lemmas.BlendUniform
import Verif.Props.Forgetting
import Verif.Props.CmIewma

/-
Property C207: CM-IEWMA forgets the past.
-/
set_option linter.unusedSectionVars false
namespace CovPred
open Filter

variable {n : ℕ} {L : Type} [DecidableEq L]

theorem covAt_cm_rows {mv mc : ℕ} {p : ℝ × ℝ} (hp : 0 < p.1 ∧ 0 < p.2) {x : ℕ → Vec n} (hx : ∃ s < mv, x s ≠ 0) {T T' j : ℕ}
    (h : j < T - (mv - 1)) (h' : j < T' - (mv - 1)) (q : Fin n × Fin n) : covAt (cmArgs mv mc p) T x j q = covAt (cmArgs mv mc p) T' x j q := by
  have hz : ∀ i ≤ j, zAt (cmArgs mv mc p) T x i = zAt (cmArgs mv mc p) T' x i := fun i hi => by
    have e : adjAt (cmArgs mv mc p) T x i = adjAt (cmArgs mv mc p) T' x i := by
      funext c; unfold adjAt; rw [live_cm_getD hp hx (by omega), live_cm_getD hp hx (by omega)]
    funext c; unfold zAt muOf; rw [e]; simp [cmArgs]
  unfold covAt halflifeAverage
  congr 1
  apply Finset.sum_congr rfl
  intro i hi
  simp only [hz i (by rw [Finset.mem_range] at hi; omega)]

/-- the rows of a run up to row `t` and the covariance of its last row -/
theorem row_of_run (hn : 0 < n) {mv mc : ℕ} (hmv : 0 < mv) (hmc : 0 < mc) {p : ℝ × ℝ} (hp : 0 < p.1 ∧ 0 < p.2) {t : ℕ} (hmt : mv + mc - 2 ≤ t)
    (c : ℕ) {u : ℕ → Vec n} (hu : ∃ s < mv, u s ≠ 0) {rows : List ℕ} {m w : ℕ → Fin n → ℝ} {S : ℕ → Fin n × Fin n → ℝ}
    (hr : iteratedEwma (finFrame (t + 1) (fun k : ℕ => k + c) u) (cmArgs mv mc p).toArgs
        = .ok (rows.map fun t => { time := t + c, mean := finRow (m t), covariance := finRow (S t), volatility := finRow (w t) })) :
    t ∈ rows ∧ ∀ i j, rowIewma mv mc p u t i j = S t (i, j) := by
  have hinc : Increasing (t + 1) (fun k : ℕ => k + c) := fun a b hab _ => Nat.add_lt_add_right hab c
  rw [iterated_cm hn hmv hmc hp hu hinc (by omega)] at hr
  injection hr with hr
  have hm : itemAt (cmArgs mv mc p) (t + 1) (fun k : ℕ => k + c) u (t + 1 - mv) ∈
      (List.range' (mv + mc - 2) (t + 1 - (mv + mc - 2))).map fun s => itemAt (cmArgs mv mc p) (s + 1) (fun k : ℕ => k + c) u (s + 1 - mv) :=
    List.mem_map.2 ⟨t, by rw [List.mem_range'_1]; omega, rfl⟩
  rw [hr] at hm
  obtain ⟨t', ht', e⟩ := List.mem_map.1 hm
  have et : t' = t := by
    have h5 : t' + c = (itemAt (cmArgs mv mc p) (t + 1) (fun k : ℕ => k + c) u (t + 1 - mv)).time := by rw [← e]
    have h6 : (itemAt (cmArgs mv mc p) (t + 1) (fun k : ℕ => k + c) u (t + 1 - mv)).time
        = (live (cmArgs mv mc p) (t + 1) u).getD (t + 1 - mv) 0 + c := rfl
    rw [h6, live_cm_getD hp hu (by omega)] at h5
    omega
  rw [et] at e ht'
  refine ⟨ht', fun i j => ?_⟩
  have e7 : (itemAt (cmArgs mv mc p) (t + 1) (fun k : ℕ => k) u (t + 1 - mv)).covariance
      = (itemAt (cmArgs mv mc p) (t + 1) (fun k : ℕ => k + c) u (t + 1 - mv)).covariance := rfl
  unfold rowIewma realCov
  rw [e7, ← e]
  simp [finRow, XR.toReal]

/-- one expert, without the factor `1 + lamda` -/
private theorem row_forgets (hn : 0 < n) {mv mc : ℕ} (hmv : 0 < mv) (hmc : 0 < mc) {p : ℝ × ℝ} (hp : 0 < p.1 ∧ 0 < p.2) {M v0 d0 : ℝ} (hM : 0 ≤ M)
    (hv0 : 0 < v0) (hd0 : 0 < d0) :
    ∃ K B H : ℝ, 0 < H ∧ ∀ x y : ℕ → Vec n, (∃ s < mv, x s ≠ 0) → (∃ s < mv, y s ≠ 0) → ∀ T,
      (∀ t < T, ∀ i, |x t i| ≤ M ∧ |y t i| ≤ M) →
      (∀ t < T, mv - 1 ≤ t → ∀ i, v0 ≤ vol (cmArgs mv mc p) x t i ∧ v0 ≤ vol (cmArgs mv mc p) y t i) →
      (∀ t < T, mv + mc - 2 ≤ t → ∀ i, d0 ≤ covAt (cmArgs mv mc p) (t + 1) x (t + 1 - mv) (i, i) ∧
        d0 ≤ covAt (cmArgs mv mc p) (t + 1) y (t + 1 - mv) (i, i)) →
      ∀ s, (∀ t, s ≤ t → t < T → x t = y t) → ∀ t < T, mv + mc - 2 ≤ t → ∀ i j,
        |rowIewma mv mc p y t i j - rowIewma mv mc p x t i j| ≤ K * (2 : ℝ) ^ (-((t - s : ℕ) : ℝ) / H) ∧
        |rowIewma mv mc p x t i j| ≤ B ∧ |rowIewma mv mc p y t i j| ≤ B := by
  have : Nonempty (Fin n) := ⟨⟨0, hn⟩⟩
  have hH1 : p.1 < p.1 + p.2 := by linarith [hp.2]
  have hH2 : p.2 < p.1 + p.2 := by linarith [hp.1]
  obtain ⟨K, B, h⟩ := forgets_bounded (H := p.1 + p.2) hp.1 hp.2 hp.1 hp.2 hH1 hH2 hH1 hH2 hM hv0 hd0
  refine ⟨K, B, p.1 + p.2, by linarith [hp.1, hp.2], ?_⟩
  intro x y hx hy T hb hv hc s hs t ht hmt i j
  have hinc : Increasing (t + 1) (fun k : ℕ => k) := fun a b hab _ => hab
  have hlen : (rowsFrom (cmArgs mv mc p).minPeriodsVola (t + 1)).length = t + 1 - (mv - 1) := by
    rw [rowsFrom_eq_drop, List.length_drop, List.length_range]
    simp [cmArgs]
  obtain ⟨rows, m, m', w, w', S, S', r1, r2, h3⟩ := h ℕ (Fin n) (cmArgs mv mc p) (cmArgs_valid hp) rfl rfl rfl rfl rfl (t + 1) (fun k => k) x y
    (distinct_of_increasing hinc) (by omega) (by simp only [cmArgs]; omega) (fun k hk => hb k (by omega))
    (fun k hk hk2 => hv k (by omega) (by simp only [cmArgs] at hk2; omega))
    (fun k hk c => by
      rw [mem_rowsFrom, hlen] at hk
      have hk2 : (mc : Int) - 1 ≤ k := hk.2
      have h4 := hc (k + mv - 1) (by omega) (by omega) c
      rw [show k + mv - 1 + 1 - mv = k by omega] at h4
      rw [covAt_cm_rows (T' := k + mv - 1 + 1) hp hx (by omega) (by omega), covAt_cm_rows (T' := k + mv - 1 + 1) hp hy (by omega) (by omega)]
      exact h4) s (fun k h1 h2 => hs k h1 (by omega))
  obtain ⟨hm, e1⟩ := row_of_run hn hmv hmc hp hmt 0 hx r1
  obtain ⟨_, e2⟩ := row_of_run hn hmv hmc hp hmt 0 hy r2
  rw [e1, e2]
  exact (h3 t hm).2.2 i j

/-- the window up to row `t` as a panel -/
noncomputable def cmWinPanel (label : XR × XR → L) (pairs : List (ℝ × ℝ)) (mv mc : ℕ) (lamda : ℝ) (x : ℕ → Vec n) (W t : ℕ) :
    Panel ℕ n (expertPairs label (pairs.map fun p => (XR.fin p.1, XR.fin p.2))).length where
  len := W + 1
  time u := u
  cov u := cmExpert label pairs mv mc lamda x (t - W + u)
  mean _ _ := 0
  ret u := x (t - W + u)

variable {label : XR × XR → L} {pairs : List (ℝ × ℝ)} {mv mc W : ℕ} {lamda : ℝ}

theorem cmWin_logLik (x : ℕ → Vec n) {t : ℕ} (ht : W ≤ t) (w : Vec _) :
    (cmWinPanel label pairs mv mc lamda x W t).logLik W W w = cmWindowLogLik label pairs mv mc lamda x W t w := by
  unfold Panel.logLik cmWindowLogLik
  apply Finset.sum_bij (fun u _ => t - W + u)
  · intro u hu
    rw [Finset.mem_Ioc] at hu ⊢
    omega
  · intro a _ b _ hab; omega
  · intro b hb
    rw [Finset.mem_Ioc] at hb
    exact ⟨b - (t - W), by rw [Finset.mem_Ioc]; omega, by omega⟩
  · intro u hu
    rw [Finset.mem_Ioc] at hu
    have e : blendMean ((cmWinPanel label pairs mv mc lamda x W t).cov (u - 1)) ((cmWinPanel label pairs mv mc lamda x W t).mean (u - 1)) w = 0 := by
      unfold blendMean
      simp [cmWinPanel]
    rw [e]
    show gaussLogDensity 0 (blendCov (cmExpert label pairs mv mc lamda x (t - W + (u - 1))) w) (x (t - W + u)) = _
    rw [show t - W + (u - 1) = t - W + u - 1 by omega]

theorem cmWin_gram (x : ℕ → Vec n) (T : ℕ) {t : ℕ} (ht : mv + mc - 2 + W ≤ t) :
    (cmWinPanel label pairs mv mc lamda x W t).gram W W
      = (cmPanel label pairs mv mc lamda (fun t : ℕ => t) x T).gram W (t - (mv + mc - 2)) := by
  unfold Panel.gram
  apply Finset.sum_bij (fun u _ => t - (mv + mc - 2) - W + u)
  · intro u hu
    rw [Finset.mem_Ioc] at hu ⊢
    omega
  · intro a _ b _ hab; omega
  · intro b hb
    rw [Finset.mem_Ioc] at hb
    exact ⟨b - (t - (mv + mc - 2) - W), by rw [Finset.mem_Ioc]; omega, by omega⟩
  · intro u hu
    rw [Finset.mem_Ioc] at hu
    have e : (cmWinPanel label pairs mv mc lamda x W t).scores u
        = (cmPanel label pairs mv mc lamda (fun t : ℕ => t) x T).scores (t - (mv + mc - 2) - W + u) := by
      unfold Panel.scores cmWinPanel cmPanel
      dsimp only
      rw [show mv + mc - 2 + (t - (mv + mc - 2) - W + u) = t - W + u by omega,
        show mv + mc - 2 + (t - (mv + mc - 2) - W + u - 1) = t - W + (u - 1) by omega]
    rw [e]

open Classical in
theorem cmExpert_entry (label : XR × XR → L) (pairs : List (ℝ × ℝ)) (mv mc : ℕ) (lamda : ℝ) (i : Fin (nExperts label pairs)) (a b : Fin n) :
    ∃ c : ℝ, (c = 1 ∨ c = 1 + lamda) ∧ ∀ (x : ℕ → Vec n) (t : ℕ), cmExpert label pairs mv mc lamda x t i a b
      = c * rowIewma mv mc (expertPair label pairs i) x t a b := by
  by_cases hc : ∃ p rest, pairs = p :: rest ∧
      (expertPairs label (pairs.map fun p => (XR.fin p.1, XR.fin p.2)))[i].1 = label (XR.fin p.1, XR.fin p.2)
  · have e : ∀ (x : ℕ → Vec n) (t : ℕ), cmExpert label pairs mv mc lamda x t i = Matrix.of fun a b =>
        if a = b then (1 + lamda) * rowIewma mv mc (expertPair label pairs i) x t a b else rowIewma mv mc (expertPair label pairs i) x t a b :=
      fun x t => if_pos hc
    by_cases hab : a = b
    · exact ⟨1 + lamda, Or.inr rfl, fun x t => by rw [e, Matrix.of_apply, if_pos hab]⟩
    · exact ⟨1, Or.inl rfl, fun x t => by rw [e, Matrix.of_apply, if_neg hab, one_mul]⟩
  · have e : ∀ (x : ℕ → Vec n) (t : ℕ), cmExpert label pairs mv mc lamda x t i = rowIewma mv mc (expertPair label pairs i) x t :=
      fun x t => if_neg hc
    exact ⟨1, Or.inl rfl, fun x t => by rw [e, one_mul]⟩

theorem cmExpert_abs {x : ℕ → Vec n} {t : ℕ} (hl : 0 ≤ lamda) (i : Fin _) {a b : Fin n} {B : ℝ}
    (h : |rowIewma mv mc (expertPair label pairs i) x t a b| ≤ B) : |cmExpert label pairs mv mc lamda x t i a b| ≤ (1 + lamda) * B := by
  obtain ⟨c, hc, e⟩ := cmExpert_entry label pairs mv mc lamda i a b
  have h0 : 0 ≤ c := by rcases hc with rfl | rfl <;> linarith
  have h1 : c ≤ 1 + lamda := by rcases hc with rfl | rfl <;> linarith
  rw [e, abs_mul, abs_of_nonneg h0]
  exact mul_le_mul h1 h (abs_nonneg _) (by linarith)

theorem cmExpert_close {x y : ℕ → Vec n} {t u : ℕ} (hl : 0 ≤ lamda) (i : Fin _) {a b : Fin n} {B : ℝ}
    (h : |rowIewma mv mc (expertPair label pairs i) y u a b - rowIewma mv mc (expertPair label pairs i) x t a b| ≤ B) :
    |cmExpert label pairs mv mc lamda y u i a b - cmExpert label pairs mv mc lamda x t i a b| ≤ (1 + lamda) * B := by
  obtain ⟨c, hc, e⟩ := cmExpert_entry label pairs mv mc lamda i a b
  have h0 : 0 ≤ c := by rcases hc with rfl | rfl <;> linarith
  have h1 : c ≤ 1 + lamda := by rcases hc with rfl | rfl <;> linarith
  rw [e, e, ← mul_sub, abs_mul, abs_of_nonneg h0]
  exact mul_le_mul h1 h (abs_nonneg _) (by linarith)

theorem cmWin_inBounds {τ : Type} [LinearOrder τ] {solvers : Solvers n} {T : ℕ} {tm : ℕ → τ} {z : ℕ → Vec n} {d : Dict τ (Mat n)}
    {M v0 d0 p0 g0 A : ℝ} {B : Fin (nExperts label pairs) → ℝ} (hl : 0 ≤ lamda) (hA : ∀ i, (1 + lamda) * B i ≤ A)
    (hz : CmSetup solvers pairs mv mc W T tm z) (bz : CmBounds label pairs mv mc W lamda T z M v0 d0 p0 g0)
    (hdz : cmIewma label solvers (pairs.map fun p => (XR.fin p.1, XR.fin p.2)) (rowDict T tm z) mv mc lamda W = .ok d)
    {t : ℕ} (hB : ∀ i u, t - W ≤ u → u < T → ∀ a b, |rowIewma mv mc (expertPair label pairs i) z u a b| ≤ B i) (hmt : mv + mc - 2 + W ≤ t)
    (htT : t < T) : (cmWinPanel label pairs mv mc lamda z W t).InBounds W A M p0 g0 := by
  obtain ⟨_, hc, _⟩ := (cmIewma_ok_iff label hz lamda d).mp hdz
  refine ⟨⟨fun _ _ h _ => h, fun u hu i => ?_⟩, rfl, fun _ _ => rfl, fun u hu i a b => ?_, fun u hu i => ?_, fun u hu i => ?_, ?_⟩
  · have hu : u < W + 1 := hu
    have h1 := hc.ok.posDef (t - W + u - (mv + mc - 2)) (by show _ < T - (mv + mc - 2); omega) i
    change (cmExpert label pairs mv mc lamda z (mv + mc - 2 + (t - W + u - (mv + mc - 2))) i).PosDef at h1
    rw [show mv + mc - 2 + (t - W + u - (mv + mc - 2)) = t - W + u by omega] at h1
    exact h1
  · exact (cmExpert_abs hl i (hB i _ (by omega) (by omega) a b)).trans (hA i)
  · exact bz.det _ (by omega) (by omega) i
  · exact bz.ret _ (by omega) i
  · rw [cmWin_gram z T hmt]
    exact bz.gram t htT hmt

theorem cmWin_optimal {z : ℕ → Vec n} {t : ℕ} (ht : W ≤ t) {w : Vec _} (h1 : Simplex w)
    (h2 : ∀ w', Simplex w' → cmWindowLogLik label pairs mv mc lamda z W t w' ≤ cmWindowLogLik label pairs mv mc lamda z W t w) :
    (cmWinPanel label pairs mv mc lamda z W t).Optimal W W w :=
  ⟨h1, fun v hv => by rw [cmWin_logLik z ht, cmWin_logLik z ht]; exact h2 v hv⟩

/-- **C207.** CM-IEWMA forgets the past, uniformly. Fix the arguments (`lamda ≥ 0`) and bounds (`Spec/CmForgetting`). For every tolerance `e` there is a
number `N` such that for any two histories within the bounds, of any length, that agree from row `s` on, and any successful runs with exact solvers,
the predictions for every row from `s + N` on (with a full window of `W` rows) differ by less than `e` in every entry. -/
theorem C207_forgets (hn : 0 < n) (label : XR × XR → L) {pairs : List (ℝ × ℝ)} (hpairs : ∀ p ∈ pairs, 0 < p.1 ∧ 0 < p.2) {mv mc : ℕ} (hmv : 0 < mv)
    (hmc : 0 < mc) (W : ℕ) {lamda : ℝ} (hl : 0 ≤ lamda) {M v0 d0 p0 g0 : ℝ} (hM : 0 ≤ M) (hv0 : 0 < v0) (hd0 : 0 < d0) (hp0 : 0 < p0) (hg0 : 0 < g0)
    {e : ℝ} (he : 0 < e) :
    ∃ N : ℕ, ∀ (τ : Type) [LinearOrder τ] (solvers solvers' : Solvers n) (T : ℕ) (tm : ℕ → τ) (x y : ℕ → Vec n) (d d' : Dict τ (Mat n)),
      CmSetup solvers pairs mv mc W T tm x → CmSetup solvers' pairs mv mc W T tm y →
      (∀ K, (solvers K).Exact) → (∀ K, (solvers' K).Exact) →
      CmBounds label pairs mv mc W lamda T x M v0 d0 p0 g0 → CmBounds label pairs mv mc W lamda T y M v0 d0 p0 g0 →
      cmIewma label solvers (pairs.map fun p => (XR.fin p.1, XR.fin p.2)) (rowDict T tm x) mv mc lamda W = .ok d →
      cmIewma label solvers' (pairs.map fun p => (XR.fin p.1, XR.fin p.2)) (rowDict T tm y) mv mc lamda W = .ok d' →
      ∀ s, (∀ t, s ≤ t → t < T → x t = y t) → ∀ t, s + N ≤ t → mv + mc - 2 + W ≤ t → t < T →
        ∃ S S', d.lookup (tm t) = some S ∧ d'.lookup (tm t) = some S' ∧ ∀ i j, |S' i j - S i j| < e := by
  by_cases hne : pairs = []
  · exact ⟨0, fun τ _ solvers _ T tm x _ _ _ h => absurd hne h.pairs_ne⟩
  have hK : 0 < nExperts label pairs := by
    obtain ⟨p, ps, rfl⟩ := List.exists_cons_of_ne_nil hne
    exact expertPairs_pos label p ps
  choose Kc B H hH hrow using fun i : Fin (nExperts label pairs) =>
    row_forgets hn hmv hmc (hpairs _ (expertPair_mem label (pairs := pairs) i)) hM hv0 hd0
  obtain ⟨A, hA⟩ : ∃ A, ∀ i, (1 + lamda) * B i ≤ A :=
    ⟨∑ i, |(1 + lamda) * B i|, fun i => (le_abs_self _).trans
      (Finset.single_le_sum (f := fun i => |(1 + lamda) * B i|) (fun _ _ => abs_nonneg _) (Finset.mem_univ i))⟩
  obtain ⟨δ, hδ, hblend⟩ := blend_uniform (n := n) hK W (A := A) (M := M) hp0 hg0 he
  have hN : ∀ᶠ m : ℕ in atTop, ∀ i, (1 + lamda) * (Kc i * (2 : ℝ) ^ (-(m : ℝ) / H i)) ≤ δ := by
    refine eventually_all.2 fun i => ?_
    have h1 : Tendsto (fun m : ℕ => (1 + lamda) * (Kc i * (betaOf (H i)) ^ m)) atTop (nhds ((1 + lamda) * (Kc i * 0))) :=
      ((tendsto_pow_atTop_nhds_zero_of_lt_one (betaOf_pos _).le (betaOf_lt_one (hH i))).const_mul _).const_mul _
    rw [mul_zero, mul_zero] at h1
    refine (h1.eventually (gt_mem_nhds hδ)).mono fun m hm => ?_
    rw [← betaOf_pow]
    exact hm.le
  obtain ⟨N0, hN0⟩ := eventually_atTop.1 hN
  refine ⟨N0 + W, ?_⟩
  intro τ _ solvers solvers' T tm x y d d' hx hy hs hs' bx by' hd hd' s hag t hst hmt htT
  have hroom : cmWindow mv mc W T = W := by unfold cmWindow; omega
  obtain ⟨S, l1, _, _, w, sw, eS, ow⟩ := C150_prediction label hx lamda hd (s := t) (by rw [hroom]; exact hmt) htT
  obtain ⟨S', l2, _, _, w', sw', eS', ow'⟩ := C150_prediction label hy lamda hd' (s := t) (by rw [hroom]; exact hmt) htT
  rw [hroom] at ow ow'
  have hrows : ∀ i u, mv + mc - 2 ≤ u → u < T → ∀ a b, _ := fun i u h1 h2 a b =>
    hrow i x y hx.awake hy.awake T (fun k hk c => ⟨bx.ret k hk c, by'.ret k hk c⟩)
      (fun k hk h3 c => ⟨bx.vola _ (expertPair_mem label i) k hk h3 c, by'.vola _ (expertPair_mem label i) k hk h3 c⟩)
      (fun k hk h3 c => ⟨bx.moment _ (expertPair_mem label i) k hk h3 c, by'.moment _ (expertPair_mem label i) k hk h3 c⟩) s hag u h2 h1 a b
  refine ⟨S, S', l1, l2, fun i j => ?_⟩
  have h := hblend _ _ (cmWin_inBounds (W := W) hl hA hx bx hd (fun i u h1 h2 a b => (hrows i u (by omega) h2 a b).2.1) hmt htT) (cmWin_inBounds (W := W) hl hA hy by' hd' (fun i u h1 h2 a b => (hrows i u (by omega) h2 a b).2.2) hmt htT)
    (fun u hu k a b => by
      refine (cmExpert_close hl k (hrows k (t - W + u) (by omega) (by omega) a b).1).trans ?_
      exact hN0 _ (by omega) k)
    (fun u hu _ => (hag (t - W + u) (by omega) (by omega)).symm)
    w w' (cmWin_optimal (by omega) sw (ow hs)) (cmWin_optimal (by omega) sw' (ow' hs')) i j
  have e1 : ∀ z : ℕ → Vec n, (cmWinPanel label pairs mv mc lamda z W t).cov W = cmExpert label pairs mv mc lamda z t := fun z => by
    show cmExpert label pairs mv mc lamda z (t - W + W) = _
    rw [Nat.sub_add_cancel (by omega)]
  rw [e1, e1, ← eS, ← eS'] at h
  exact h

end CovPred
