import Verif.Spec.RoundedMethod
import Verif.Props.Continuity
import Verif.Props.RoundedIewma
import Verif.Props.EndToEnd

/-
The whole method with experts computed with rounding: the predictions converge to the exact ones as the arithmetic gets more accurate.
-/
set_option linter.unusedSectionVars false
namespace CovPred

variable {τ : Type} [LinearOrder τ] {n : ℕ} {L : Type} [DecidableEq L]

private theorem exists_lower {A : Type} [Finite A] (f : A → ℝ) (hf : ∀ a, 0 < f a) : ∃ m, 0 < m ∧ ∀ a, m ≤ f a := by
  rcases isEmpty_or_nonempty A with h | h
  · exact ⟨1, one_pos, fun a => (h.false a).elim⟩
  · obtain ⟨a, ha⟩ := Finite.exists_min f
    exact ⟨f a, hf a, ha⟩

private theorem exists_upper {A : Type} [Finite A] (f : A → ℝ) : ∃ m, 0 ≤ m ∧ ∀ a, f a ≤ m := by
  rcases isEmpty_or_nonempty A with h | h
  · exact ⟨0, le_rfl, fun a => (h.false a).elim⟩
  · obtain ⟨a, ha⟩ := Finite.exists_max f
    exact ⟨max 0 (f a), le_max_left _ _, fun b => (ha b).trans (le_max_right _ _)⟩

private theorem fin_represents (T : ℕ) (tm : ℕ → τ) (x : ℕ → Fin n → ℝ) (b : Bool) : Represents (finFrame T tm x) b T tm x :=
  ⟨fun t => finRow (x t), rfl, fun t _ i => Or.inl (by simp [finRow])⟩

/-- a good covariance has positive second moments of the adjusted returns -/
private theorem covAt_pos {a : RealArgs} {T : ℕ} {tm : ℕ → τ} {x : ℕ → Fin n → ℝ} {j : ℕ} (h : GoodCov (itemAt a T tm x j)) (i : Fin n) :
    0 < covAt a T x j (i, i) := by
  have h0 : 0 ≤ covAt a T x j (i, i) := by
    unfold covAt
    rw [halflifeAverage_eq]
    exact emaAvg_nonneg (betaOf_pos _) fun k _ => mul_self_nonneg _
  refine lt_of_le_of_ne h0 fun he => ?_
  obtain ⟨v, hv⟩ := h.finite (i, i)
  simp only [itemAt, Arr.get_ofFn, sigmaAt] at hv
  rw [if_pos (Or.inl he.symm)] at hv
  cases hv

/-- one expert -/
private theorem expert_round (hn : 0 < n) {T : ℕ} {tm : ℕ → τ} (hd : DistinctTimes T tm) {x : ℕ → Fin n → ℝ} {p : ℝ × ℝ} (hp : 0 < p.1 ∧ 0 < p.2)
    {mv mc : Int} {mean : Bool} (hvol : ∀ t, t < T → mv - 1 ≤ (t : Int) → ∀ i, 0 < vol (ewmasArgs mv mc none mean p) x t i)
    {rs : List (IEWMA τ (Fin n) XR)} (hrs : iteratedEwma (finFrame T tm x) (ewmasArgs mv mc none mean p).toArgs = .ok rs)
    (hgood : ∀ r ∈ rs, GoodCov r) {e : ℝ} (he : 0 < e) :
    ∃ u0 B : ℝ, 0 < u0 ∧ ∀ (F : FloatOps) (u η : ℝ), F.Accurate u η → u + η ≤ u0 → B ≤ F.big →
      ∃ rs', iteratedEwma (rfRows F (List.range T) tm x) ((ewmasArgs mv mc none mean p).toRF F) = .ok rs' ∧
        List.Forall₂ (fun r r' => r'.time = r.time ∧ r'.Numbers ∧ (∀ i j, |r'.matrix i j - realCov r i j| ≤ e) ∧
          ∀ i, |r'.vector i - (r.mean i).toReal| ≤ e) rs rs' := by
  have : Nonempty (Fin n) := ⟨⟨0, hn⟩⟩
  set a := ewmasArgs mv mc none mean p with ha
  have hval : a.Valid := ewmasArgs_valid hp mv mc none mean
  obtain ⟨hlive, hrows⟩ := results_of_ok hval hd (fin_represents T tm x a.nanToNum) hrs
  have hcl : a.clip = none := rfl
  obtain ⟨t0, ht0⟩ := List.exists_mem_of_ne_nil _ hlive
  have ht0 := mem_live.1 ht0
  -- the constants
  obtain ⟨M, hM0, hM⟩ := exists_upper fun q : Fin T × Fin n => |x q.1 q.2|
  obtain ⟨v0, hv0, hv⟩ := exists_lower (fun q : Fin T × Fin n => if mv - 1 ≤ ((q.1 : ℕ) : Int) then vol a x q.1 q.2 else 1) fun q => by
    split
    · next h => exact hvol _ q.1.2 h _
    · exact one_pos
  obtain ⟨d0, hd0, hdd⟩ := exists_lower (fun q : {j // j ∈ rowsFrom a.minPeriodsCov (live a T x).length} × Fin n => covAt a T x q.1 (q.2, q.2))
    fun q => covAt_pos (tm := tm) (hgood _ (by rw [hrows]; exact List.mem_map.2 ⟨q.1, q.1.2, rfl⟩)) q.2
  have hmu1 : 0 < a.mu1h := by show 0 < p.1; exact hp.1
  have hmu2 : 0 < a.mu2h := by show 0 < p.2; exact hp.2
  obtain ⟨K, u0, B, hu0, hmain⟩ := C188_iterated_ewma hp.1 hp.2 hmu1 hmu2 hM0 hv0 hd0
  refine ⟨min u0 (e / (|K| + 1)), B, lt_min hu0 (by positivity), fun F u η hF hu hB => ?_⟩
  obtain ⟨rows, m, m', v, v', S, S', h1, h2, h3⟩ := hmain τ (Fin n) F u η hF (hu.trans (min_le_left _ _)) hB a hval rfl rfl rfl rfl hcl T tm x hd
    (by omega) (by have := ht0.2.1; omega) (fun t ht i => hM (⟨t, ht⟩, i)) (fun t ht htm i => by
      have := hv (⟨t, ht⟩, i)
      rwa [if_pos (show mv - 1 ≤ (t : Int) from htm)] at this) fun j hj i => hdd (⟨j, hj⟩, i)
  rw [h1] at hrs
  have hrs := Except.ok.inj hrs
  have hKe : K * (u + η) ≤ e := by
    have hu1 := hu.trans (min_le_right _ _)
    have hue : 0 ≤ u + η := add_nonneg hF.u_nonneg hF.η_nonneg
    have : (u + η) * (|K| + 1) ≤ e := (le_div_iff₀ (by positivity)).1 hu1
    have h5 : K * (u + η) ≤ |K| * (u + η) := mul_le_mul_of_nonneg_right (le_abs_self K) hue
    nlinarith
  refine ⟨_, h2, ?_⟩
  rw [← hrs, List.forall₂_map_left_iff, List.forall₂_map_right_iff]
  refine List.forall₂_same.2 fun t ht => ⟨rfl, ⟨fun i => ⟨m' t i, ?_⟩, fun i j => ⟨S' t (i, j), ?_⟩⟩, fun i j => ?_, fun i => ?_⟩
  · simp [rfRow]
  · simp [rfRow]
  · have := ((h3 t ht).2.2 i j).trans hKe
    simpa [IEWMA.matrix, realCov, rfRow, finRow, XR.toReal] using this
  · have := ((h3 t ht).1 i).trans hKe
    simpa [IEWMA.vector, rfRow, finRow, XR.toReal] using this

private theorem sigmas_of_list {K : ℕ} (Q : Panel τ n K) {A : Type} {rs : List A} {time : A → τ} {cov : A → Mat n} (k : Fin K)
    (hlen : rs.length = Q.len) (h : ∀ t (ht : t < rs.length), time rs[t] = Q.time t ∧ cov rs[t] = Q.cov t k) :
    (rs.map fun r => (time r, cov r)) = Q.sigmas k := by
  refine List.ext_getElem (by simp [Panel.sigmas, hlen]) fun t h1 h2 => ?_
  rw [List.length_map] at h1
  obtain ⟨e1, e2⟩ := h t h1
  simp [Panel.sigmas, e1, e2]

private theorem means_of_list {K : ℕ} (Q : Panel τ n K) {A : Type} {rs : List A} {time : A → τ} {mean : A → Vec n} (k : Fin K)
    (hlen : rs.length = Q.len) (h : ∀ t (ht : t < rs.length), time rs[t] = Q.time t ∧ mean rs[t] = Q.mean t k) :
    (rs.map fun r => (time r, mean r)) = Q.means k := by
  refine List.ext_getElem (by simp [Panel.means, hlen]) fun t h1 h2 => ?_
  rw [List.length_map] at h1
  obtain ⟨e1, e2⟩ := h t h1
  simp [Panel.means, e1, e2]

/-- **C193.** The whole method with experts computed with rounding. Let `from_ewmas` succeed in exact arithmetic (no clipping, no missing
returns, all volatilities positive). For every window and every `e > 0` there is an accuracy such that in every arithmetic at least that accurate
every expert's `iterated_ewma` (for the last pair with its label) succeeds with numbers only, for the same times, `from_sigmas` accepts the
results, and every request for which the exact method succeeds also succeeds, with results within `e`: times, labels, weights, means,
covariances. -/
theorem C193_rounded_experts (hn : 0 < n) (label : XR × XR → L) {T : ℕ} {tm : ℕ → τ} (htm : ∀ s t, s < t → t < T → tm s < tm t)
    {x : ℕ → Fin n → ℝ} {pairs : List (ℝ × ℝ)} (hp : PosPairs pairs) (hne : pairs ≠ []) (mv mc : Int) (mean : Bool) {c : EwmaComb L τ n}
    (h : callEwmas label (finFrame T tm x) pairs mv mc none mean = .ok c)
    (hvol : ∀ p ∈ pairs, ∀ t, t < T → mv - 1 ≤ (t : Int) → ∀ i, 0 < vol (ewmasArgs mv mc none mean p) x t i)
    {p : ℝ × ℝ} (hpp : LastPair label pairs p) {rs : List (IEWMA τ (Fin n) XR)}
    (hrs : iteratedEwma (finFrame T tm x) (ewmasArgs mv mc none mean p).toArgs = .ok rs) (hlong : 2 ≤ rs.length)
    (window : Option ℕ) (e : ℝ) (he : 0 < e) :
    ∃ u0 B : ℝ, 0 < u0 ∧ ∀ (F : FloatOps) (u η : ℝ), F.Accurate u η → u + η ≤ u0 → B ≤ F.big →
      ∃ (rs' : Fin c.labels.length → List (IEWMA τ (Fin n) (RF F))) (c' : Comb τ n c.labels.length),
        (∀ k : Fin c.labels.length, ∃ q, LastPair label pairs q ∧ label (xrPair q) = c.labels[k.1] ∧
          iteratedEwma (rfRows F (List.range T) tm x) ((ewmasArgs mv mc none mean q).toRF F) = .ok (rs' k)) ∧
        (∀ k, (rs' k).map IEWMA.time = rs.map IEWMA.time ∧ ∀ r ∈ rs' k, r.Numbers) ∧
        fromSigmas (fun k => (rs' k).map fun r => (r.time, r.matrix)) ((List.range T).map fun t => (tm t, x t))
          (some fun k => some ((rs' k).map fun r => (r.time, r.vector))) = .ok c' ∧
        ∀ (solver solver' : (K : ℕ) → Solver n K), (∀ K, (solver K).Exact ∧ (solver K).Complete) →
          (∀ K, (solver' K).Exact ∧ (solver' K).Complete) →
          ∀ times, TimesOf (rs.map IEWMA.time) times → (c.solve solver window times).err = none →
          ((⟨c.labels, c', []⟩ : EwmaComb L τ n).solve solver' window times).err = none ∧
          List.Forall₂ (Option.Rel (EwmaResult.Within e)) (c.solve solver window times).items
            ((⟨c.labels, c', []⟩ : EwmaComb L τ n).solve solver' window times).items := by
  have hdt := distinct_of_lt htm
  have hf := fin_represents T tm x true
  have hmis : c.missing = [] := by
    refine List.eq_nil_iff_forall_not_mem.2 fun t ht => ?_
    rw [C70_from_ewmas_missing hn label hdt hf hp mv mc none mean h] at ht
    obtain ⟨row, hrow, i, hi⟩ := ht
    obtain ⟨s, _, hs⟩ := List.mem_map.1 hrow
    cases hs
    simp [finRow] at hi
  have hrr : realReturns (finFrame T tm x) = (List.range T).map fun t => (tm t, x t) := by
    unfold realReturns finFrame finRows
    rw [List.map_map]
    refine List.map_congr_left fun t _ => ?_
    simp only [Function.comp, Prod.mk.injEq, true_and]
    funext i
    simp [finRow, XR.toReal]
  obtain ⟨_, hlab, q, rq, hlast, hrq, hgood, hfs⟩ := C41_as_from_sigmas hn label hdt hf hp mv mc none mean h
  obtain ⟨P, hP, hret, hk⟩ := C41_panel hn label htm hf hp hne mv mc none mean h
  have hin : ∀ k, q k ∈ pairs := fun k => by
    obtain ⟨pre, post, e, _⟩ := hlast k
    rw [e]; simp
  have hlp : ∀ k, LastPair label pairs (q k) ∧ label (xrPair (q k)) = c.labels[k.1] := fun k => by
    obtain ⟨pre, post, e1, e2, e3⟩ := hlast k
    exact ⟨⟨pre, post, e1, by rw [e2]; exact e3⟩, e2⟩
  have hval : ∀ k : Fin c.labels.length, (rq k).length = P.len ∧ ∀ t (ht : t < (rq k).length), ((rq k)[t]).time = P.time t ∧
      realCov ((rq k)[t]) = P.cov t k ∧ (fun i => (((rq k)[t]).mean i).toReal) = P.mean t k := fun k => by
    obtain ⟨q', hl', ru, hru, hlen, hv⟩ := hk k
    have hqq : q k = q' := lastPair_unique (hlast k) hl'
    subst hqq
    rw [hrq k] at hru
    cases hru
    refine ⟨hlen, fun t ht => ?_⟩
    obtain ⟨a1, a2, a3⟩ := hv t ht
    refine ⟨a1, ?_, ?_⟩
    · ext i j
      rw [realCov, Matrix.of_apply, a2]
      rfl
    · funext i
      rw [a3]
      rfl
  obtain ⟨k0, hk0⟩ := exists_labelIndex hlab hpp
  have hqp : p = q k0 := lastPair_unique hk0 (hlast k0)
  subst hqp
  rw [hrq k0] at hrs
  cases hrs
  have hPlen : 2 ≤ P.len := by rw [← (hval k0).1]; exact hlong
  obtain ⟨d, hd0, hd⟩ := C192_any_nearby hP hPlen window e he
  choose u0 B hu0 hround using fun k => expert_round hn hdt (hp _ (hin k)) (hvol _ (hin k)) (hrq k) (hgood k) hd0
  obtain ⟨um, hum, hul⟩ := exists_lower u0 hu0
  obtain ⟨Bm, _, hBl⟩ := exists_upper B
  refine ⟨um, Bm, hum, fun F u η hF hu hB => ?_⟩
  choose rs' hrun hrel using fun k => hround k F u η hF (hu.trans (hul k)) ((hBl k).trans hB)
  have hlen' : ∀ k, (rs' k).length = P.len := fun k => by rw [← (hrel k).length_eq, (hval k).1]
  have hget : ∀ k t (ht : t < (rs' k).length), ((rs' k)[t]).time = P.time t ∧ ((rs' k)[t]).Numbers ∧
      (∀ i j, |((rs' k)[t]).matrix i j - P.cov t k i j| ≤ d) ∧ ∀ i, |((rs' k)[t]).vector i - P.mean t k i| ≤ d := fun k t ht => by
    have ht' : t < (rq k).length := by rw [(hval k).1, ← hlen' k]; exact ht
    obtain ⟨a1, a2, a3, a4⟩ := List.forall₂_iff_get.1 (hrel k) |>.2 t ht' ht
    obtain ⟨b1, b2, b3⟩ := (hval k).2 t ht'
    simp only [List.get_eq_getElem] at a1 a2 a3 a4
    refine ⟨a1.trans b1, a2, fun i j => ?_, fun i => ?_⟩
    · rw [← b2]; exact a3 i j
    · rw [← b3]; exact a4 i
  -- the panel of the rounded experts
  let Q : Panel τ n c.labels.length :=
    { len := P.len
      time := P.time
      cov := fun t k => if ht : t < (rs' k).length then ((rs' k)[t]).matrix else 0
      mean := fun t k => if ht : t < (rs' k).length then ((rs' k)[t]).vector else 0
      ret := P.ret }
  have hclose : P.CloseBy d Q := ⟨rfl, fun _ _ => rfl, fun t ht k i j => by
      show |(if ht : t < (rs' k).length then ((rs' k)[t]).matrix else 0) i j - _| ≤ d
      rw [dif_pos (by rw [hlen']; exact ht)]
      exact (hget k t _).2.2.1 i j, fun t ht k i => by
      show |(if ht : t < (rs' k).length then ((rs' k)[t]).vector else 0) i - _| ≤ d
      rw [dif_pos (by rw [hlen']; exact ht)]
      exact (hget k t _).2.2.2 i, fun t _ _ i => by
      show |P.ret t i - P.ret t i| ≤ d
      rw [sub_self, abs_zero]; exact hd0.le⟩
  obtain ⟨c', hc', _, hsolve⟩ := hd Q (realReturns (finFrame T tm x)) hclose hP.covered
  have hsig : (fun k => (rs' k).map fun r => (r.time, r.matrix)) = Q.sigmas := by
    funext k
    exact sigmas_of_list Q k (hlen' k) fun t ht => ⟨(hget k t ht).1, by
      show _ = if ht : t < (rs' k).length then ((rs' k)[t]).matrix else 0
      rw [dif_pos ht]⟩
  have hmean : (fun k => (rs' k).map fun r => (r.time, r.vector)) = Q.means := by
    funext k
    exact means_of_list Q k (hlen' k) fun t ht => ⟨(hget k t ht).1, by
      show _ = if ht : t < (rs' k).length then ((rs' k)[t]).vector else 0
      rw [dif_pos ht]⟩
  refine ⟨rs', c', fun k => ⟨q k, (hlp k).1, (hlp k).2, hrun k⟩, fun k => ⟨?_, ?_⟩, ?_, ?_⟩
  · refine List.ext_getElem (by rw [List.length_map, List.length_map, hlen' k, (hval k0).1]) fun t h1 h2 => ?_
    rw [List.length_map] at h1 h2
    rw [List.getElem_map, List.getElem_map, (hget k t h1).1, ((hval k0).2 t h2).1]
  · intro r hr
    obtain ⟨t, ht, rfl⟩ := List.getElem_of_mem hr
    exact (hget k t ht).2.1
  · rw [← hrr, hsig, ← hc']
    congr 1
    congr 1
    funext k
    rw [← hmean]
  · intro solver solver' hs hs' times htimes herr
    obtain ⟨a, b, hreq⟩ := request_of_times (P := P) (by rw [List.length_map]; exact (hval k0).1) (by
      intro t ht
      rw [List.getElem_map]
      exact ((hval k0).2 t (by simpa using ht)).1) htimes (effWindow window (P.len - 1))
    unfold EwmaComb.solve at herr ⊢
    rw [hmis] at herr ⊢
    dsimp only at herr ⊢
    rw [C70_none_missing] at herr ⊢
    rw [C70_none_missing]
    obtain ⟨h1, h2⟩ := hsolve (solver _) (solver' _) (hs _).1 (hs _).2 (hs' _).1 (hs' _).2 times a b hreq herr
    refine ⟨h1, ?_⟩
    rw [List.forall₂_map_left_iff, List.forall₂_map_right_iff]
    refine h2.imp fun o o' ho => ?_
    cases ho with
    | none => exact .none
    | some hw =>
      refine .some ⟨hw.time, hw.mean, hw.covariance, ?_⟩
      unfold EwmaComb.labelled
      rw [List.forall₂_iff_get]
      refine ⟨by simp, fun i h1 h2 => ?_⟩
      simp only [List.length_ofFn] at h1
      simp only [List.get_eq_getElem, List.getElem_ofFn, true_and]
      exact hw.weights _

namespace RoundedMethodEx

/-- binary arithmetic with `p` bits, no overflow up to `B` -/
theorem bits_big (p : ℕ) (B : ℝ) : FloatOps.Accurate { RoundedEx.bits p with big := B } (2 ^ (-(p : ℤ))) 0 :=
  ⟨(RoundedEx.bits_accurate p).u_nonneg, le_rfl, (RoundedEx.bits_accurate p).add, (RoundedEx.bits_accurate p).sub,
    (RoundedEx.bits_accurate p).mul, (RoundedEx.bits_accurate p).div, (RoundedEx.bits_accurate p).sqrt, (RoundedEx.bits_accurate p).exp,
    (RoundedEx.bits_accurate p).log, (RoundedEx.bits_accurate p).npow⟩

theorem vol_pos (p : ℝ × ℝ) (hp : 0 < p.1 ∧ 0 < p.2) (t : ℕ) (i : Fin 2) : 0 < vol (ewmasArgs 1 2 none false p) Ex.x t i := by
  have hv := ewmasArgs_valid hp 1 2 none false
  refine lt_of_le_of_ne (Real.sqrt_nonneg _) fun h0 => ?_
  have := (volSq_zero_iff hv Ex.x t i).mp h0.symm 0 (by omega) (Or.inl rfl)
  have e : cRet (ewmasArgs 1 2 none false p) Ex.x 0 i = Ex.x 0 i := by simp [cRet, muOf, ewmasArgs]
  rw [e] at this
  fin_cases i
  · exact (E2EEx.fine.first 0).ne' this
  · exact E2EEx.fine.second this

/-- The hypotheses of C193 are met: two assets, four days, one pair of half-lives. In binary arithmetic with enough bits the predictions for the
last two days are within `1e-9` of the exact ones. -/
example [DecidableEq (XR × XR)] : ∃ c, callEwmas id (finFrame 4 id Ex.x) E2EEx.pairs 1 2 none false = .ok c ∧
    (c.solve (exactSolver 2) (some 1)).items.length = 2 ∧
    ∃ (p : ℕ) (B : ℝ) (rs' : Fin c.labels.length → List (IEWMA ℕ (Fin 2) (RF { RoundedEx.bits p with big := B }))) (c' : Comb ℕ 2 c.labels.length),
      (∀ k, (rs' k).map IEWMA.time = [1, 2, 3] ∧ ∀ r ∈ rs' k, r.Numbers) ∧
      fromSigmas (fun k => (rs' k).map fun r => (r.time, r.matrix)) ((List.range 4).map fun t => (t, Ex.x t))
          (some fun k => some ((rs' k).map fun r => (r.time, r.vector))) = .ok c' ∧
      ((⟨c.labels, c', []⟩ : EwmaComb (XR × XR) ℕ 2).solve (exactSolver 2) (some 1)).err = none ∧
      List.Forall₂ (Option.Rel (EwmaResult.Within (1 / 10 ^ 9))) (c.solve (exactSolver 2) (some 1)).items
        ((⟨c.labels, c', []⟩ : EwmaComb (XR × XR) ℕ 2).solve (exactSolver 2) (some 1)).items := by
  have hf : Represents (finFrame 4 id Ex.x) true 4 id Ex.x := fin_represents 4 id Ex.x true
  have hpp : ((2, 3) : ℝ × ℝ) ∈ E2EEx.pairs := by simp [E2EEx.pairs]
  obtain ⟨c, hc⟩ := E2EEx.succeeds_of E2EEx.fine (by norm_num) (E2EEx.distinct 4) hf
  obtain ⟨s1, s2, _⟩ := E2EEx.solves_of E2EEx.fine (by norm_num) (tm := id) (fun s t h _ => h) hf (by
    rintro t _ _ ⟨row, hrow, i, hi⟩
    obtain ⟨s, _, hs⟩ := List.mem_map.1 hrow
    cases hs
    simp [finRow] at hi) hc
  have hr := E2EEx.runs_of E2EEx.fine (by norm_num) (E2EEx.distinct 4) hf (2, 3) (E2EEx.pos _ hpp)
  obtain ⟨u0, B, hu0, h⟩ := C193_rounded_experts (by norm_num) id (tm := id) (fun s t h _ => h) E2EEx.pos (by simp [E2EEx.pairs]) 1 2 false hc
    (fun p hp t _ _ i => vol_pos p (E2EEx.pos p hp) t i) (p := (2, 3)) ⟨[], [], rfl, by simp⟩ hr
    (by rw [List.length_map, E2EEx.rowsFrom_length]; norm_num) (some 1) (1 / 10 ^ 9) (by norm_num)
  obtain ⟨p, hp⟩ := exists_pow_lt_of_lt_one hu0 (show (1 / 2 : ℝ) < 1 by norm_num)
  have hpe : (2 : ℝ) ^ (-(p : ℤ)) = (1 / 2) ^ p := by rw [zpow_neg, zpow_natCast, one_div, inv_pow]
  obtain ⟨rs', c', _, h2, h3, h4⟩ := h _ _ _ (bits_big p B) (by rw [add_zero, hpe]; exact hp.le) le_rfl
  have htimes : ((rowsFrom 2 4).map (itemAt (ewmasArgs 1 2 none false (2, 3)) 4 id Ex.x)).map IEWMA.time = [1, 2, 3] := by
    rw [List.map_map, rowsFrom_eq_drop]
    have hl := E2EEx.live_eq 4 (2, 3)
    simp [itemAt, hl, List.range_succ]
  obtain ⟨h5, h6⟩ := h4 (exactSolver 2) (exactSolver 2) (fun K => ⟨exactSolver_exact, exactSolver_complete⟩)
    (fun K => ⟨exactSolver_exact, exactSolver_complete⟩) none .all s2
  exact ⟨c, hc, s1, p, B, rs', c', fun k => ⟨(h2 k).1.trans htimes, (h2 k).2⟩, h3, h5, h6⟩

end RoundedMethodEx
end CovPred
