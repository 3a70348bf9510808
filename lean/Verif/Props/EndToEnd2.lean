import Verif.Props.EndToEnd

/-
Property C132: what `from_ewmas(returns, pairs).solve(window, times)` yields (combination.py:103-139, 203-286, ewma.py).
-/
set_option linter.unusedSectionVars false
namespace CovPred
open XR

variable {τ : Type} [LinearOrder τ] {n : ℕ} {L : Type} [DecidableEq L]

/-- `P` is the panel of the experts of a call of `from_ewmas` with the labels `labels`: expert `k` is the
`iterated_ewma` of the last pair with the label `labels[k]`; position `t` of the panel has the time, the covariance and
the mean of the `t`-th result of each expert, and the return of that time (a missing entry counts as 0). -/
structure EwmaPanel (label : XR × XR → L) (f : Frame τ (Fin n) XR) (pairs : List (ℝ × ℝ)) (mv mc : Int)
    (clipAt : Option ℝ) (mean : Bool) (labels : List L) (P : Panel τ n labels.length) : Prop where
  nodup : labels.Nodup
  mem : ∀ l, l ∈ labels ↔ ∃ p ∈ pairs, label (xrPair p) = l
  expert : ∀ k : Fin labels.length, ∃ p, LastPair label pairs p ∧ label (xrPair p) = labels[k.1] ∧
    ∃ rs, iteratedEwma f (ewmasArgs mv mc clipAt mean p).toArgs = .ok rs ∧ rs.length = P.len ∧
      ∀ t (ht : t < rs.length), (rs[t]).time = P.time t ∧
        (∀ i j, (rs[t]).covariance (i, j) = fin (P.cov t k i j)) ∧ ∀ i, (rs[t]).mean i = fin (P.mean t k i)
  ret : ∀ t < P.len, ∃ row, (P.time t, row) ∈ f ∧
    ∀ i, row i = fin (P.ret t i) ∨ (row i = nan ∧ P.ret t i = 0)

/-- the window of a call, for a panel with `len` positions: all positions but the first if it is not given or 0, and
never more than that -/
def windowOf (window : Option ℕ) (len : ℕ) : ℕ := min (if window.getD 0 = 0 then len - 1 else window.getD 0) (len - 1)

theorem windowOf_eq (window : Option ℕ) (len : ℕ) : windowOf window len = effWindow window (len - 1) := by
  unfold windowOf effWindow
  cases window with
  | none => simp
  | some w => by_cases h : w = 0 <;> simp [h]

/-- the row of time `s` has a missing entry -/
def MissingAt (f : Frame τ (Fin n) XR) (s : τ) : Prop := ∃ row, (s, row) ∈ f ∧ ∃ i, row i = nan

/-- the panel of a successful call -/
theorem ewmaPanel_of_call (hn : 0 < n) (label : XR × XR → L) {f : Frame τ (Fin n) XR} {T : ℕ} {tm : ℕ → τ}
    (htm : ∀ s t, s < t → t < T → tm s < tm t) {x : ℕ → Fin n → ℝ} (hf : Represents f true T tm x)
    {pairs : List (ℝ × ℝ)} (hp : PosPairs pairs) (hne : pairs ≠ []) (mv mc : Int) (clipAt : Option ℝ) (mean : Bool)
    {c : EwmaComb L τ n} (h : callEwmas label f pairs mv mc clipAt mean = .ok c) :
    ∃ P : Panel τ n c.labels.length, EwmaPanel label f pairs mv mc clipAt mean c.labels P ∧
      P.Gives (realReturns f) c.comb := by
  have hd := distinct_of_lt htm
  obtain ⟨h1, h2, _⟩ := C41_as_from_sigmas hn label hd hf hp mv mc clipAt mean h
  obtain ⟨P, hP, hret, hk⟩ := C41_panel hn label htm hf hp hne mv mc clipAt mean h
  refine ⟨P, ⟨h1, h2, ?_, ?_⟩, hP⟩
  · intro k
    obtain ⟨p, ⟨pre, post, e, hl, hpost⟩, rs, hrs, hlen, hv⟩ := hk k
    exact ⟨p, ⟨pre, post, e, fun q hq => by rw [hl]; exact hpost q hq⟩, hl, rs, hrs, hlen, hv⟩
  · intro t ht
    obtain ⟨s, hs, e1, e2⟩ := hret t ht
    obtain ⟨R, rfl, hR⟩ := hf
    refine ⟨R s, ?_, ?_⟩
    · rw [e1]; exact List.mem_map.mpr ⟨s, List.mem_range.mpr hs, rfl⟩
    · intro i
      rw [e2]
      rcases hR s hs i with h | ⟨_, h, h'⟩
      · exact Or.inl h
      · exact Or.inr ⟨h, h'⟩

/-- two experts give the same panel -/
theorem EwmaPanel.results {label : XR × XR → L} {f : Frame τ (Fin n) XR} {pairs : List (ℝ × ℝ)} {mv mc : Int}
    {clipAt : Option ℝ} {mean : Bool} {labels : List L} {P : Panel τ n labels.length}
    (h : EwmaPanel label f pairs mv mc clipAt mean labels P) {p : ℝ × ℝ} (hpp : LastPair label pairs p)
    {rs : List (IEWMA τ (Fin n) XR)} (hrs : iteratedEwma f (ewmasArgs mv mc clipAt mean p).toArgs = .ok rs) :
    rs.length = P.len ∧ ∀ t (ht : t < rs.length), (rs[t]).time = P.time t := by
  obtain ⟨k, hk⟩ := exists_labelIndex h.mem hpp
  obtain ⟨p', ⟨pre, post, e, hpost⟩, hl, rs', hrs', hlen, hv⟩ := h.expert k
  have : p = p' := lastPair_unique hk ⟨pre, post, e, hl, fun q hq => by rw [← hl]; exact hpost q hq⟩
  subst this
  rw [hrs] at hrs'
  cases hrs'
  exact ⟨hlen, fun t ht => (hv t ht).1⟩

/-- **C132.** What the whole method yields. Let `from_ewmas` succeed, with at least two results per expert (of which `p`
is one). There is a panel of the experts' predictions and the returns such that, for an exact solver, every result of
`solve(window, times)` is for the time of some position `t` with a full window of returns before it; its weights are
labelled with the labels of the experts in order and maximise, over the simplex, the log-likelihood of the returns of the
window under the blended predictions made one position before; its mean and covariance are the blend with these weights
of the experts' predictions at `t` (for the next position); and no return of the window has a missing entry. -/
theorem C132_results (hn : 0 < n) (label : XR × XR → L) {f : Frame τ (Fin n) XR} {T : ℕ} {tm : ℕ → τ}
    (htm : ∀ s t, s < t → t < T → tm s < tm t) {x : ℕ → Fin n → ℝ} (hf : Represents f true T tm x)
    {pairs : List (ℝ × ℝ)} (hp : PosPairs pairs) (hne : pairs ≠ []) (mv mc : Int) (clipAt : Option ℝ) (mean : Bool)
    {c : EwmaComb L τ n} (h : callEwmas label f pairs mv mc clipAt mean = .ok c)
    {p : ℝ × ℝ} (hpp : LastPair label pairs p) {rs : List (IEWMA τ (Fin n) XR)}
    (hrs : iteratedEwma f (ewmasArgs mv mc clipAt mean p).toArgs = .ok rs) (hlong : 2 ≤ rs.length)
    (solver : (K : ℕ) → Solver n K) (hs : ∀ K, (solver K).Exact) (window : Option ℕ) (times : Option (List τ))
    (htimes : TimesOf (rs.map IEWMA.time) times) :
    ∃ P : Panel τ n c.labels.length, EwmaPanel label f pairs mv mc clipAt mean c.labels P ∧
      ∀ r, some r ∈ (c.solve solver window times).items →
        ∃ t w, windowOf window P.len ≤ t ∧ t < P.len ∧ (∀ ts, times = some ts → r.time ∈ ts) ∧ r.time = P.time t ∧
          r.weights = List.ofFn (fun k => (c.labels.get k, w k)) ∧ P.Optimal (windowOf window P.len) t w ∧
          r.mean = blendMean (P.cov t) (P.mean t) w ∧ r.covariance = blendCov (P.cov t) w ∧
          ∀ s, t - windowOf window P.len < s → s ≤ t → ¬ MissingAt f (P.time s) := by
  obtain ⟨P, hE, hP⟩ := ewmaPanel_of_call hn label htm hf hp hne mv mc clipAt mean h
  refine ⟨P, hE, ?_⟩
  intro r hr
  rw [windowOf_eq]
  obtain ⟨hlen, htime⟩ := hE.results hpp hrs
  obtain ⟨a, b, hreq⟩ := request_of_times (P := P) (ts := rs.map IEWMA.time) (by rw [List.length_map, hlen])
    (by intro t ht; rw [List.getElem_map]; exact htime t _) htimes (effWindow window (P.len - 1))
  simp only [EwmaComb.solve, List.mem_map] at hr
  obtain ⟨o, ho, e⟩ := hr
  obtain ⟨r0, rfl, rfl⟩ := Option.map_eq_some_iff.mp e
  obtain ⟨hclean, heq⟩ := solveNan_eq_of_items hP (by omega) c.missing (solver _) window times a b hreq
    (List.ne_nil_of_mem ho)
  rw [heq] at ho
  obtain ⟨t, h1, h2, h3, h4, _, hopt, hr0⟩ := exact_result hP (by omega) (hs _) window hreq ho
  have hw : r0.weights = P.best (effWindow window (P.len - 1)) t := by rw [hr0]; rfl
  refine ⟨t, r0.weights, h4, by omega, ?_, ?_, rfl, hopt, ?_, ?_, ?_⟩
  · intro ts hts
    subst hts
    cases hreq with
    | some z m hz hm hzm =>
      show r0.time ∈ _
      rw [hr0]
      refine List.mem_map.mpr ⟨t, ?_, rfl⟩
      rw [List.mem_range'_1]
      refine ⟨?_, h2⟩
      unfold firstResult at h1
      split at h1 <;> omega
  · show r0.time = _
    rw [hr0]; rfl
  · show r0.mean = _
    rw [hw, hr0]; rfl
  · show r0.covariance = _
    rw [hw, hr0]; rfl
  · intro s h5 h6 hm
    exact hclean t h1 h2 s h5 h6
      ((C70_from_ewmas_missing hn label (distinct_of_lt htm) hf hp mv mc clipAt mean h _).mpr hm)

/-- **C132.** When the method answers: if no return of the positions from the second on is missing and for no window the
standardised returns of the experts are linearly dependent (the Gram matrix is positive definite), an exact solver that
always finds the optimum gives exactly one result for each position with a full window before it, in order. -/
theorem C132_schedule (hn : 0 < n) (label : XR × XR → L) {f : Frame τ (Fin n) XR} {T : ℕ} {tm : ℕ → τ}
    (htm : ∀ s t, s < t → t < T → tm s < tm t) {x : ℕ → Fin n → ℝ} (hf : Represents f true T tm x)
    {pairs : List (ℝ × ℝ)} (hp : PosPairs pairs) (hne : pairs ≠ []) (mv mc : Int) (clipAt : Option ℝ) (mean : Bool)
    {c : EwmaComb L τ n} (h : callEwmas label f pairs mv mc clipAt mean = .ok c)
    {p : ℝ × ℝ} (hpp : LastPair label pairs p) {rs : List (IEWMA τ (Fin n) XR)}
    (hrs : iteratedEwma f (ewmasArgs mv mc clipAt mean p).toArgs = .ok rs) (hlong : 2 ≤ rs.length)
    (hmiss : ∀ s, 0 < s → ∀ r, rs[s]? = some r → ¬ MissingAt f r.time)
    (solver : (K : ℕ) → Solver n K) (hs : ∀ K, (solver K).Exact ∧ (solver K).Complete) (window : Option ℕ) :
    ∃ P : Panel τ n c.labels.length, EwmaPanel label f pairs mv mc clipAt mean c.labels P ∧
      ((∀ t, windowOf window P.len ≤ t → t < P.len → (P.gram (windowOf window P.len) t).PosDef) →
        (c.solve solver window).err = none ∧ (∀ o ∈ (c.solve solver window).items, o.isSome) ∧
        (c.solve solver window).items.map (Option.map EwmaResult.time)
          = ((rs.drop (windowOf window rs.length)).map IEWMA.time).map some) ∧
      ((∃ t, windowOf window P.len ≤ t ∧ t < P.len ∧ ¬ (P.gram (windowOf window P.len) t).PosDef) →
        c.solve solver window = ⟨[], some .linAlgError⟩) := by
  obtain ⟨P, hE, hP⟩ := ewmaPanel_of_call hn label htm hf hp hne mv mc clipAt mean h
  refine ⟨P, hE, ?_⟩
  obtain ⟨hlen, htime⟩ := hE.results hpp hrs
  rw [windowOf_eq, windowOf_eq, hlen]
  have hclean : c.comb.solveNan c.missing (solver _) window none = c.comb.solve (solver _) window none := by
    refine C70_missing_elsewhere hP (by omega) c.missing (solver _) window none _ _ .all ?_
    intro t h1 h2 s h3 h4 h5
    rw [C70_from_ewmas_missing hn label (distinct_of_lt htm) hf hp mv mc clipAt mean h] at h5
    refine hmiss s (by omega) (rs[s]'(by omega)) (List.getElem?_eq_getElem _) ?_
    rw [htime s (by omega)]
    exact h5
  have hrun := solve_run_none hP (by omega) (hs _).1.feasible window
  constructor
  · intro hg
    have := run_complete hP.ok hP.experts (hs _).1 (hs _).2 le_rfl le_rfl hrun hg
    simp only [EwmaComb.solve, hclean, this]
    refine ⟨trivial, ?_, ?_⟩
    · intro o ho
      simp only [List.map_map, List.mem_map] at ho
      obtain ⟨t, _, rfl⟩ := ho
      rfl
    · apply List.ext_getElem
      · simp [hlen]
      · intro i h1 h2
        simp only [List.length_map, List.length_drop] at h2
        simp only [List.getElem_map, List.getElem_range', Nat.one_mul, List.getElem_drop, htime]
        rfl
  · rintro ⟨t, h1, h2, h3⟩
    have he : c.comb.solve (solver _) window none = ⟨[], some .linAlgError⟩ := by
      rcases hrun with ⟨_, he⟩ | ⟨hg, _⟩
      · exact he
      · exact absurd (hg t h1 h2) h3
    simp only [EwmaComb.solve, hclean, he, List.map_nil]

/-! ### the hypotheses can be met -/

/-- Four rows, a missing entry in row 1 (which is not used), one expert, window 1: a result for row 2 and one for row 3,
both with weight 1 on the expert. -/
example [DecidableEq (XR × XR)] : ∃ c, callEwmas id (E2EEx.frame 4) E2EEx.pairs 1 2 none false = .ok c ∧
    (c.solve (exactSolver 2) (some 1)).items.map (Option.map EwmaResult.time) = [some 2, some 3] ∧
    ∀ r, some r ∈ (c.solve (exactSolver 2) (some 1)).items → r.weights.map Prod.snd = [1] := by
  obtain ⟨c, hc⟩ := E2EEx.succeeds 4 (by norm_num)
  have hs := E2EEx.solves 4 (by norm_num) hc
  have hpp : ((2, 3) : ℝ × ℝ) ∈ E2EEx.pairs := by simp [E2EEx.pairs]
  have hlp : LastPair (id : XR × XR → XR × XR) E2EEx.pairs (2, 3) := ⟨[], [], rfl, by simp⟩
  have hruns := E2EEx.runs 4 (by norm_num) _ (E2EEx.pos _ hpp)
  have hrows : rowsFrom 2 4 = [1, 2, 3] := by rw [rowsFrom_eq_drop]; rfl
  have htimes : ((rowsFrom 2 4).map (itemAt (ewmasArgs 1 2 none false (2, 3)) 4 (id : ℕ → ℕ) Ex.x)).map IEWMA.time
      = [1, 2, 3] := by
    rw [hrows]
    simp only [List.map_cons, List.map_nil, itemAt, id]
    rw [E2EEx.live_eq]
    rfl
  refine ⟨c, hc, ?_, ?_⟩
  · obtain ⟨P, _, h1, h2⟩ := C132_schedule (by norm_num) id (tm := id) (fun s t h _ => h) (E2EEx.represents 4) E2EEx.pos
      (by simp [E2EEx.pairs]) 1 2 none false hc hlp hruns (by rw [hrows]; simp) (by
        intro s hs0 r hr ⟨row, hrow, i, hi⟩
        have ht : r.time = s + 1 := by
          have := congrArg (fun l : List ℕ => l[s]?) htimes
          simp only [List.getElem?_map] at this
          rw [List.getElem?_map] at hr
          rw [hr] at this
          have hs3 : s < 3 := by
            by_contra h3
            rw [List.getElem?_eq_none (by simp; omega)] at this
            cases this
          interval_cases s <;> simpa using this
        rw [ht] at hrow
        unfold E2EEx.frame at hrow
        obtain ⟨u, hu, e⟩ := List.mem_map.mp hrow
        simp only [Prod.mk.injEq] at e
        rw [← e.2, Arr.get_ofFn] at hi
        have : ¬ (u = 1 ∧ i = 1) := by omega
        rw [if_neg this] at hi
        cases hi) (exactSolver 2) (fun K => ⟨exactSolver_exact, exactSolver_complete⟩) (some 1)
    have hg : ∀ t, windowOf (some 1) P.len ≤ t → t < P.len → (P.gram (windowOf (some 1) P.len) t).PosDef := by
      intro t ht1 ht2
      by_contra hng
      have := h2 ⟨t, ht1, ht2, hng⟩
      rw [this] at hs
      simp at hs
    rw [(h1 hg).2.2, ← List.map_drop.symm, List.map_drop, htimes, List.length_map, hrows]
    rfl
  · intro r hr
    obtain ⟨P, _, h1⟩ := C132_results (by norm_num) id (tm := id) (fun s t h _ => h) (E2EEx.represents 4) E2EEx.pos
      (by simp [E2EEx.pairs]) 1 2 none false hc hlp hruns (by rw [hrows]; simp) (exactSolver 2)
      (fun K => exactSolver_exact) (some 1) none .all
    obtain ⟨t, w, _, _, _, _, hw, hopt, _⟩ := h1 r hr
    have hK : c.labels.length = 1 := by
      rw [callEwmas_labels (by norm_num) id (E2EEx.distinct 4) (E2EEx.represents 4) E2EEx.pos hc]
      simp [expertPairs, E2EEx.pairs, dictOf]
    have hsum := hopt.1
    rw [hw, List.map_ofFn]
    have key : ∀ {K : ℕ} (_ : K = 1) (w : Vec K), Simplex w → List.ofFn w = [1] := by
      intro K hK w hw
      subst hK
      have := hw.sum_one
      simp only [Fin.sum_univ_one] at this
      simp [List.ofFn_succ, this]
    exact key hK w hsum

end CovPred
