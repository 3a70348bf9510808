import Verif.Lemmas.FromEwmas
import Verif.Lemmas.Align
import Verif.Lemmas.Span
import Verif.Props.Schedule

/-
Properties C41, C69, C70 of `from_ewmas` (combination.py:103-139).
-/
set_option linter.unusedSectionVars false
namespace CovPred
open XR

variable {τ : Type} [LinearOrder τ] {n : ℕ} {L : Type} [DecidableEq L]

/-- a pair of half-lives as the code sees it -/
def xrPair (p : ℝ × ℝ) : XR × XR := (fin p.1, fin p.2)

/-- The arguments of the expert with the half-lives `p` (those that `from_ewmas` does not set have their defaults). -/
noncomputable def ewmasArgs (mv mc : Int) (clipAt : Option ℝ) (mean : Bool) (p : ℝ × ℝ) : RealArgs where
  volaHalflife := p.1
  covHalflife := p.2
  minPeriodsVola := mv
  minPeriodsCov := mc
  mean := mean
  clipAt := clipAt

theorem ewmasArgs_toArgs (mv mc : Int) (clipAt : Option ℝ) (mean : Bool) (p : ℝ × ℝ) :
    (ewmasArgs mv mc clipAt mean p).toArgs = pairArgs mv mc (clipAt.map fin) mean (xrPair p) := rfl

/-- both half-lives of all pairs are positive -/
def PosPairs (pairs : List (ℝ × ℝ)) : Prop := ∀ p ∈ pairs, 0 < p.1 ∧ 0 < p.2

theorem ewmasArgs_valid {p : ℝ × ℝ} (h : 0 < p.1 ∧ 0 < p.2) (mv mc : Int) (clipAt : Option ℝ) (mean : Bool) :
    (ewmasArgs mv mc clipAt mean p).Valid :=
  ⟨h.1, h.2, (by intro h hh; cases hh), (by intro h hh; cases hh)⟩

/-- The call of `from_ewmas` with ordinary arguments. -/
noncomputable def callEwmas (label : XR × XR → L) (f : Frame τ (Fin n) XR) (pairs : List (ℝ × ℝ)) (mv mc : Int)
    (clipAt : Option ℝ) (mean : Bool) : Except Err (EwmaComb L τ n) :=
  fromEwmas label f (pairs.map xrPair) mv mc (clipAt.map fin) mean

theorem noInf_of_represents {f : Frame τ (Fin n) XR} {T : ℕ} {tm : ℕ → τ} {x : ℕ → Fin n → ℝ} {b : Bool}
    (hf : Represents f b T tm x) : NoInf f := by
  obtain ⟨R, rfl, hR⟩ := hf
  intro p hp i
  obtain ⟨t, ht, rfl⟩ := List.mem_map.mp hp
  rcases hR t (List.mem_range.mp ht) i with h | ⟨_, h, _⟩
  · exact Or.inl ⟨_, h⟩
  · exact Or.inr h

/-- the results of the expert with the half-lives `p` -/
noncomputable def expertResults (mv mc : Int) (clipAt : Option ℝ) (mean : Bool) (T : ℕ) (tm : ℕ → τ)
    (x : ℕ → Fin n → ℝ) (p : ℝ × ℝ) : List (IEWMA τ (Fin n) XR) :=
  let a := ewmasArgs mv mc clipAt mean p
  (rowsFrom mc (live a T x).length).map (itemAt a T tm x)

theorem live_sorted (a : RealArgs) (T : ℕ) (x : ℕ → Fin n → ℝ) : (live a T x).Pairwise (· < ·) := by
  unfold live; exact List.Pairwise.filter _ List.pairwise_lt_range

theorem live_lt {a : RealArgs} {T : ℕ} {x : ℕ → Fin n → ℝ} {j : ℕ} (hj : j < (live a T x).length) :
    (live a T x).getD j 0 < T := (mem_live.mp (liveRows_getD_mem hj)).1

theorem rowsFrom_sorted (m : Int) (N : ℕ) : (rowsFrom m N).Pairwise (· < ·) := by
  unfold rowsFrom; exact List.Pairwise.filter _ List.pairwise_lt_range

/-- the row numbers of the results -/
theorem result_rows_sorted (a : RealArgs) (m : Int) (T : ℕ) (x : ℕ → Fin n → ℝ) :
    ((rowsFrom m (live a T x).length).map fun j => (live a T x).getD j 0).Pairwise (· < ·) := by
  rw [List.pairwise_map]
  refine (rowsFrom_sorted m _).imp_of_mem ?_
  intro j k hj hk hjk
  have hk' := (mem_rowsFrom.mp hk).1
  rw [getD_lt (by omega), getD_lt hk']
  exact List.pairwise_iff_getElem.mp (live_sorted a T x) j k (by omega) hk' hjk

theorem result_times_eq (mv mc : Int) (clipAt : Option ℝ) (mean : Bool) (T : ℕ) (tm : ℕ → τ)
    (x : ℕ → Fin n → ℝ) (p : ℝ × ℝ) : (expertResults mv mc clipAt mean T tm x p).map IEWMA.time
      = ((rowsFrom mc (live (ewmasArgs mv mc clipAt mean p) T x).length).map
          fun j => (live (ewmasArgs mv mc clipAt mean p) T x).getD j 0).map tm := by
  unfold expertResults
  rw [List.map_map, List.map_map]
  rfl

theorem result_times_nodup (mv mc : Int) (clipAt : Option ℝ) (mean : Bool) {T : ℕ} {tm : ℕ → τ}
    (hd : DistinctTimes T tm) (x : ℕ → Fin n → ℝ) (p : ℝ × ℝ) :
    ((expertResults mv mc clipAt mean T tm x p).map IEWMA.time).Nodup := by
  rw [result_times_eq]
  apply List.Nodup.map_on
  · intro s hs t ht e
    obtain ⟨j, hj, rfl⟩ := List.mem_map.mp hs
    obtain ⟨k, hk, rfl⟩ := List.mem_map.mp ht
    exact hd _ _ (live_lt (mem_rowsFrom.mp hj).1) (live_lt (mem_rowsFrom.mp hk).1) e
  · exact (result_rows_sorted _ _ _ _).imp fun h => h.ne

/-- the expert of the half-lives a pair stands for -/
noncomputable def unPair (q : XR × XR) : ℝ × ℝ := (q.1.toReal, q.2.toReal)

@[simp] theorem unPair_xrPair (p : ℝ × ℝ) : unPair (xrPair p) = p := rfl

/-- What a call of `from_ewmas` comes down to. -/
theorem callEwmas_cases (hn : 0 < n) (label : XR × XR → L) {f : Frame τ (Fin n) XR} {T : ℕ} {tm : ℕ → τ}
    (hd : DistinctTimes T tm) {x : ℕ → Fin n → ℝ} (hf : Represents f true T tm x) {pairs : List (ℝ × ℝ)}
    (hp : PosPairs pairs) (mv mc : Int) (clipAt : Option ℝ) (mean : Bool) :
    ((∃ p ∈ pairs, live (ewmasArgs mv mc clipAt mean p) T x = []) ∧
      callEwmas label f pairs mv mc clipAt mean = .error .indexError) ∨
    ((∀ p ∈ pairs, iteratedEwma f (ewmasArgs mv mc clipAt mean p).toArgs
        = .ok (expertResults mv mc clipAt mean T tm x p)) ∧
      callEwmas label f pairs mv mc clipAt mean
        = ewmaTail f ((expertPairs label (pairs.map xrPair)).map fun q =>
            (q.1, (expertResults mv mc clipAt mean T tm x (unPair q.2)).map fun r => (r.time, r)))) := by
  have : Nonempty (Fin n) := ⟨⟨0, hn⟩⟩
  have hrun : ∀ p ∈ pairs, iteratedEwma f (ewmasArgs mv mc clipAt mean p).toArgs
      = if live (ewmasArgs mv mc clipAt mean p) T x = [] then .error .indexError
        else .ok (expertResults mv mc clipAt mean T tm x p) := by
    intro p hpp
    exact iteratedEwma_spec (ewmasArgs_valid (hp p hpp) mv mc clipAt mean) hd hf
  unfold callEwmas
  rw [fromEwmas_tail label f (noInf_of_represents hf)]
  by_cases hl : ∃ p ∈ pairs, live (ewmasArgs mv mc clipAt mean p) T x = []
  · left
    refine ⟨hl, ?_⟩
    rcases hm : (pairs.map xrPair).mapM (pairResult label f mv mc (clipAt.map fin) mean) with e | rs
    · obtain ⟨q, hq, he⟩ := mapM_error _ _ _ hm
      obtain ⟨p, hpp, rfl⟩ := List.mem_map.mp hq
      unfold pairResult at he
      rw [← ewmasArgs_toArgs, hrun p hpp] at he
      by_cases h0 : live (ewmasArgs mv mc clipAt mean p) T x = []
      · rw [if_pos h0] at he; cases he; rfl
      · rw [if_neg h0] at he; cases he
    · exfalso
      rw [mapM_ok_iff_forall₂] at hm
      obtain ⟨p, hpp, h0⟩ := hl
      obtain ⟨r, _, hr⟩ := forall₂_mem_left hm (List.mem_map.mpr ⟨p, hpp, rfl⟩)
      unfold pairResult at hr
      rw [← ewmasArgs_toArgs, hrun p hpp, if_pos h0] at hr
      cases hr
  · right
    push Not at hl
    have hok : ∀ p ∈ pairs, iteratedEwma f (ewmasArgs mv mc clipAt mean p).toArgs
        = .ok (expertResults mv mc clipAt mean T tm x p) := fun p hpp => by rw [hrun p hpp, if_neg (hl p hpp)]
    refine ⟨hok, ?_⟩
    have h1 := pairResults_ok label f (pairs.map xrPair) mv mc (clipAt.map fin) mean
      (fun q => expertResults mv mc clipAt mean T tm x (unPair q)) (by
        intro q hq
        obtain ⟨p, hpp, rfl⟩ := List.mem_map.mp hq
        rw [← ewmasArgs_toArgs, hok p hpp, unPair_xrPair]) (fun q _ => result_times_nodup mv mc clipAt mean hd x _)
    rcases hm : (pairs.map xrPair).mapM (pairResult label f mv mc (clipAt.map fin) mean) with e | rs
    · rw [hm] at h1; cases h1
    · rw [hm] at h1
      have h2 : dictOf rs = _ := Except.ok.inj h1
      show ewmaTail f (dictOf rs) = _
      rw [h2]


/-! ### the experts are aligned -/

theorem realArgs_clip_congr (mv mc : Int) (clipAt : Option ℝ) (mean : Bool) (p q : ℝ × ℝ) :
    (ewmasArgs mv mc clipAt mean p).clip = (ewmasArgs mv mc clipAt mean q).clip := rfl

/-- the rows the results of an expert are for -/
noncomputable def resultRows (mv mc : Int) (clipAt : Option ℝ) (mean : Bool) (T : ℕ) (x : ℕ → Fin n → ℝ) (p : ℝ × ℝ) :
    List ℕ :=
  let S := live (ewmasArgs mv mc clipAt mean p) T x
  (rowsFrom mc S.length).map fun j => S.getD j 0

/-- Two experts with good covariances have results for the same rows. -/
theorem resultRows_same (hn : 0 < n) (mv mc : Int) (clipAt : Option ℝ) (mean : Bool) (T : ℕ) (tm : ℕ → τ)
    (x : ℕ → Fin n → ℝ) {p q : ℝ × ℝ} (hp : 0 < p.1 ∧ 0 < p.2) (hq : 0 < q.1 ∧ 0 < q.2)
    (gp : ∀ r ∈ expertResults mv mc clipAt mean T tm x p, GoodCov r)
    (gq : ∀ r ∈ expertResults mv mc clipAt mean T tm x q, GoodCov r) :
    resultRows mv mc clipAt mean T x p = resultRows mv mc clipAt mean T x q := by
  have vp := ewmasArgs_valid hp mv mc clipAt mean
  have vq := ewmasArgs_valid hq mv mc clipAt mean
  by_cases hs : Started (ewmasArgs mv mc clipAt mean p) x
  · unfold resultRows
    rw [live_congr vp vq rfl rfl rfl hs]
  · have key : ∀ u : ℝ × ℝ, (ewmasArgs mv mc clipAt mean u).Valid → ¬ Started (ewmasArgs mv mc clipAt mean u) x →
        (∀ r ∈ expertResults mv mc clipAt mean T tm x u, GoodCov r) → resultRows mv mc clipAt mean T x u = [] := by
      intro u vu hu gu
      unfold resultRows
      simp only [List.map_eq_nil_iff]
      by_contra hne
      obtain ⟨j, hj⟩ := List.exists_mem_of_ne_nil _ hne
      have := gu (itemAt _ T tm x j) (List.mem_map.mpr ⟨j, hj, rfl⟩)
      exact ((goodCov_iff _ T tm x j).mp this).1 ⟨0, hn⟩ (vol_zero_of_not_started vu hu _ _)
    rw [key p vp hs gp, key q vq hs gq]

theorem resultRows_times (mv mc : Int) (clipAt : Option ℝ) (mean : Bool) (T : ℕ) (tm : ℕ → τ) (x : ℕ → Fin n → ℝ)
    (p : ℝ × ℝ) : (expertResults mv mc clipAt mean T tm x p).map IEWMA.time
      = (resultRows mv mc clipAt mean T x p).map tm := result_times_eq mv mc clipAt mean T tm x p

theorem usable_realCov_iff (mv mc : Int) (clipAt : Option ℝ) (mean : Bool) (T : ℕ) (tm : ℕ → τ) (x : ℕ → Fin n → ℝ)
    (p : ℝ × ℝ) {r : IEWMA τ (Fin n) XR} (hr : r ∈ expertResults mv mc clipAt mean T tm x p) :
    Usable (realCov r) ↔ (realCov r).PosDef := by
  obtain ⟨j, _, rfl⟩ := List.mem_map.mp hr
  exact C38_usable_iff _ (realCov_symm _ T tm x j)

/-! ### C41 -/

/-- **C41.** When `from_ewmas` succeeds, its experts are the distinct labels of the pairs; the expert of a label is the
`iterated_ewma` of the last pair with this label; all its covariances are finite and positive definite; and the result is
what `from_sigmas` builds from the dictionaries of covariances and means. -/
theorem C41_as_from_sigmas (hn : 0 < n) (label : XR × XR → L) {f : Frame τ (Fin n) XR} {T : ℕ} {tm : ℕ → τ}
    (hd : DistinctTimes T tm) {x : ℕ → Fin n → ℝ} (hf : Represents f true T tm x) {pairs : List (ℝ × ℝ)}
    (hp : PosPairs pairs) (mv mc : Int) (clipAt : Option ℝ) (mean : Bool) {c : EwmaComb L τ n}
    (h : callEwmas label f pairs mv mc clipAt mean = .ok c) :
    c.labels.Nodup ∧ (∀ l, l ∈ c.labels ↔ ∃ p ∈ pairs, label (xrPair p) = l) ∧
    ∃ (p : Fin c.labels.length → ℝ × ℝ) (rs : Fin c.labels.length → List (IEWMA τ (Fin n) XR)),
      (∀ k : Fin c.labels.length, ∃ pre post, pairs = pre ++ p k :: post ∧ label (xrPair (p k)) = c.labels[k.1] ∧
        ∀ q ∈ post, label (xrPair q) ≠ c.labels[k.1]) ∧
      (∀ k, iteratedEwma f (ewmasArgs mv mc clipAt mean (p k)).toArgs = .ok (rs k)) ∧
      (∀ k, ∀ r ∈ rs k, GoodCov r) ∧
      fromSigmas (fun k => (rs k).map fun r => (r.time, realCov r)) (realReturns f)
        (some fun k => some ((rs k).map fun r => (r.time, fun i => (r.mean i).toReal))) = .ok c.comb := by
  rcases callEwmas_cases hn label hd hf hp mv mc clipAt mean with ⟨_, he⟩ | ⟨hok, he⟩
  · rw [h] at he; cases he
  · rw [he] at h
    obtain ⟨hlab, hfin, pp, hpp, hfs⟩ := ewmaTail_ok (E := expertPairs label (pairs.map xrPair))
      (rs := fun q => expertResults mv mc clipAt mean T tm x (unPair q)) h
    have hkeys := dictOf_keys ((pairs.map xrPair).map fun q => (label q, q))
    have hmem : ∀ k : Fin c.labels.length, (c.labels[k.1], pp k) ∈ expertPairs label (pairs.map xrPair) := fun k =>
      List.mem_of_getElem? (hpp k)
    have hlast : ∀ k : Fin c.labels.length, ∃ pre post, pairs = pre ++ unPair (pp k) :: post ∧
        label (xrPair (unPair (pp k))) = c.labels[k.1] ∧ ∀ q ∈ post, label (xrPair q) ≠ c.labels[k.1] := by
      intro k
      obtain ⟨pre, post, e, hpost⟩ := dictOf_last _ _ _ (hmem k)
      rw [List.map_map] at e
      obtain ⟨l1, l2, rfl, e1, e2⟩ := List.map_eq_append_iff.mp e
      obtain ⟨p0, l3, rfl, e3, e4⟩ := List.map_eq_cons_iff.mp e2
      simp only [Function.comp, Prod.mk.injEq] at e3
      refine ⟨l1, l3, ?_, ?_, ?_⟩
      · rw [← e3.2, unPair_xrPair]
      · rw [← e3.2, unPair_xrPair, e3.1]
      · intro q hq
        have := hpost (label (xrPair q), xrPair q) (by rw [← e4]; exact List.mem_map.mpr ⟨q, hq, rfl⟩)
        exact this
    have hin : ∀ k, unPair (pp k) ∈ pairs := by
      intro k
      obtain ⟨pre, post, e, _⟩ := hlast k
      rw [e]; simp
    have hus := (C38_constructor_ok _ _ _).mp ⟨_, hfs⟩
    refine ⟨?_, ?_, fun k => unPair (pp k), fun k => expertResults mv mc clipAt mean T tm x (unPair (pp k)), hlast,
      fun k => hok _ (hin k), ?_, hfs⟩
    · rw [hlab]; exact hkeys.1
    · intro l
      rw [hlab]
      unfold expertPairs
      rw [hkeys.2.1]
      simp only [List.map_map, List.mem_map, Function.comp]
    · intro k r hr
      have hr' := hfin _ (hmem k) r hr
      refine ⟨hr', (usable_realCov_iff mv mc clipAt mean T tm x _ hr).mp ?_⟩
      exact hus.2.1 k (r.time, realCov r) (List.mem_map.mpr ⟨r, hr, rfl⟩)

/-- the last pair with a label is unique -/
theorem lastPair_unique {label : XR × XR → L} {pairs : List (ℝ × ℝ)} {l : L} {p p' : ℝ × ℝ}
    (h : ∃ pre post, pairs = pre ++ p :: post ∧ label (xrPair p) = l ∧ ∀ q ∈ post, label (xrPair q) ≠ l)
    (h' : ∃ pre post, pairs = pre ++ p' :: post ∧ label (xrPair p') = l ∧ ∀ q ∈ post, label (xrPair q) ≠ l) : p = p' := by
  have key : ∀ q : ℝ × ℝ,
      (∃ pre post, pairs = pre ++ q :: post ∧ label (xrPair q) = l ∧ ∀ u ∈ post, label (xrPair u) ≠ l) →
      pairs.reverse.find? (fun q => decide (label (xrPair q) = l)) = some q := by
    rintro q ⟨pre, post, e, hl, hpost⟩
    rw [e, List.reverse_append, List.reverse_cons, List.append_assoc, List.find?_append]
    have : post.reverse.find? (fun q => decide (label (xrPair q) = l)) = none := by
      rw [List.find?_eq_none]
      intro u hu
      simpa using hpost u (List.mem_reverse.mp hu)
    rw [this]
    simp [hl]
  have := key p h
  rw [key p' h'] at this
  exact (Option.some.inj this).symm

/-- `p` is the last pair of the list with its label: the expert of this label -/
def LastPair (label : XR × XR → L) (pairs : List (ℝ × ℝ)) (p : ℝ × ℝ) : Prop :=
  ∃ pre post, pairs = pre ++ p :: post ∧ ∀ q ∈ post, label (xrPair q) ≠ label (xrPair p)

theorem LastPair.mem {label : XR × XR → L} {pairs : List (ℝ × ℝ)} {p : ℝ × ℝ} (h : LastPair label pairs p) :
    p ∈ pairs := by
  obtain ⟨pre, post, e, _⟩ := h
  rw [e]; simp

/-- **C41.** The only ways in which `from_ewmas` fails: `IndexError`, when for some pair no row enters the covariance
estimation; `LinAlgError`, when some expert (the last pair with some label) yields a covariance with `nan` or one that is
not positive definite. In particular the experts never have different times. -/
theorem C41_errors (hn : 0 < n) (label : XR × XR → L) {f : Frame τ (Fin n) XR} {T : ℕ} {tm : ℕ → τ}
    (hd : DistinctTimes T tm) {x : ℕ → Fin n → ℝ} (hf : Represents f true T tm x) {pairs : List (ℝ × ℝ)}
    (hp : PosPairs pairs) (mv mc : Int) (clipAt : Option ℝ) (mean : Bool) {e : Err}
    (h : callEwmas label f pairs mv mc clipAt mean = .error e) :
    (e = .indexError ∧ ∃ p ∈ pairs, iteratedEwma f (ewmasArgs mv mc clipAt mean p).toArgs = .error .indexError) ∨
    (e = .linAlgError ∧ (∀ p ∈ pairs, ∃ rs, iteratedEwma f (ewmasArgs mv mc clipAt mean p).toArgs = .ok rs) ∧
      ∃ p, LastPair label pairs p ∧ ∃ rs, iteratedEwma f (ewmasArgs mv mc clipAt mean p).toArgs = .ok rs ∧
        ∃ r ∈ rs, ¬ GoodCov r) := by
  have : Nonempty (Fin n) := ⟨⟨0, hn⟩⟩
  rcases callEwmas_cases hn label hd hf hp mv mc clipAt mean with ⟨⟨p, hpp, h0⟩, he⟩ | ⟨hok, he⟩
  · rw [h] at he
    cases he
    refine Or.inl ⟨rfl, p, hpp, ?_⟩
    have := iteratedEwma_spec (ewmasArgs_valid (hp p hpp) mv mc clipAt mean) hd
      (show Represents f (ewmasArgs mv mc clipAt mean p).nanToNum T tm x from hf)
    rw [this, if_pos h0]
  · right
    rw [he] at h
    have hL : ∀ q ∈ expertPairs label (pairs.map xrPair), LastPair label pairs (unPair q.2) := by
      intro q hq
      obtain ⟨pre, post, e, hpost⟩ := dictOf_last _ q.1 q.2 hq
      rw [List.map_map] at e
      obtain ⟨l1, l2, rfl, e1, e2⟩ := List.map_eq_append_iff.mp e
      obtain ⟨p0, l3, rfl, e3, e4⟩ := List.map_eq_cons_iff.mp e2
      simp only [Function.comp, Prod.mk.injEq] at e3
      rw [← e3.2, unPair_xrPair]
      refine ⟨l1, l3, rfl, ?_⟩
      intro u hu
      have := hpost (label (xrPair u), xrPair u) (by rw [← e4]; exact List.mem_map.mpr ⟨u, hu, rfl⟩)
      rw [e3.1]
      exact this
    have hE : ∀ q ∈ expertPairs label (pairs.map xrPair), unPair q.2 ∈ pairs := fun q hq => (hL q hq).mem
    have hall : ∀ p ∈ pairs, ∃ rs, iteratedEwma f (ewmasArgs mv mc clipAt mean p).toArgs = .ok rs :=
      fun p hpp => ⟨_, hok p hpp⟩
    rcases ewmaTail_error (E := expertPairs label (pairs.map xrPair))
      (rs := fun q => expertResults mv mc clipAt mean T tm x (unPair q)) h with ⟨rfl, q, hq, r, hr, hnf⟩ | ⟨hfin, K, pp, hpp, hfs⟩
    · exact ⟨rfl, hall, unPair q.2, hL q hq, _, hok _ (hE q hq), r, hr, fun hg => hnf hg.finite⟩
    · have hin : ∀ k, unPair (pp k) ∈ pairs := fun k => by
        obtain ⟨q, hq, e⟩ := hpp k; rw [← e]; exact hE q hq
      have hfin' : ∀ k, ∀ r ∈ expertResults mv mc clipAt mean T tm x (unPair (pp k)), allFinite r.covariance.get := by
        intro k
        obtain ⟨q, hq, e⟩ := hpp k
        rw [← e]; exact hfin q hq
      rcases C38_constructor_error _ _ _ _ hfs with ⟨_, ms, k, e1, e2⟩ | ⟨_, ms, k, m, e1, e2, e3⟩ |
        ⟨rfl, _, k, q, hq, hu⟩ | ⟨_, _, hu, hns⟩
      · cases e1; cases e2
      · cases e1; cases e2
        exfalso
        apply e3
        intro t
        unfold meanDict covDict Dict.keys
        rw [List.map_map, List.map_map]
        rfl
      · obtain ⟨r, hr, rfl⟩ := List.mem_map.mp hq
        obtain ⟨q, hq, e⟩ := hpp k
        refine ⟨rfl, hall, unPair (pp k), e ▸ hL q hq, _, hok _ (hin k), r, hr, fun hg => hu ?_⟩
        exact (usable_realCov_iff mv mc clipAt mean T tm x _ hr).mpr hg.posDef
      · exfalso
        apply hns
        have hgood : ∀ k, ∀ r ∈ expertResults mv mc clipAt mean T tm x (unPair (pp k)), GoodCov r := by
          intro k r hr
          refine ⟨hfin' k r hr, (usable_realCov_iff mv mc clipAt mean T tm x _ hr).mp ?_⟩
          exact hu k (r.time, realCov r) (List.mem_map.mpr ⟨r, hr, rfl⟩)
        have hkeys : ∀ k, (covDict (expertResults mv mc clipAt mean T tm x (unPair (pp k)))).keys
            = (resultRows mv mc clipAt mean T x (unPair (pp k))).map tm := by
          intro k
          rw [← resultRows_times]
          unfold covDict Dict.keys
          rw [List.map_map]
          rfl
        intro k k' t ht
        rw [hkeys] at ht ⊢
        rw [resultRows_same hn mv mc clipAt mean T tm x (hp _ (hin k')) (hp _ (hin k)) (hgood k') (hgood k)]
        exact ht

/-- **C41.** `from_ewmas` succeeds if every pair has rows that enter the covariance estimation and every expert (the last
pair with its label) gives finite positive definite covariances. -/
theorem C41_succeeds (hn : 0 < n) (label : XR × XR → L) {f : Frame τ (Fin n) XR} {T : ℕ} {tm : ℕ → τ}
    (hd : DistinctTimes T tm) {x : ℕ → Fin n → ℝ} (hf : Represents f true T tm x) {pairs : List (ℝ × ℝ)}
    (hp : PosPairs pairs) (mv mc : Int) (clipAt : Option ℝ) (mean : Bool)
    (h : ∀ p ∈ pairs, ∃ rs, iteratedEwma f (ewmasArgs mv mc clipAt mean p).toArgs = .ok rs ∧
      (LastPair label pairs p → ∀ r ∈ rs, GoodCov r)) :
    ∃ c, callEwmas label f pairs mv mc clipAt mean = .ok c := by
  rcases hc : callEwmas label f pairs mv mc clipAt mean with e | c
  · exfalso
    rcases C41_errors hn label hd hf hp mv mc clipAt mean hc with ⟨_, p, hpp, he⟩ | ⟨_, _, p, hpp, rs, he, r, hr, hg⟩
    · obtain ⟨rs, hrs, _⟩ := h p hpp
      rw [hrs] at he; cases he
    · obtain ⟨rs', hrs, hgood⟩ := h p hpp.mem
      rw [hrs] at he
      cases he
      exact hg (hgood hpp r hr)
  · exact ⟨c, rfl⟩

/-- **C41.** Exactly when `from_ewmas` succeeds. -/
theorem C41_succeeds_iff (hn : 0 < n) (label : XR × XR → L) {f : Frame τ (Fin n) XR} {T : ℕ} {tm : ℕ → τ}
    (hd : DistinctTimes T tm) {x : ℕ → Fin n → ℝ} (hf : Represents f true T tm x) {pairs : List (ℝ × ℝ)}
    (hp : PosPairs pairs) (mv mc : Int) (clipAt : Option ℝ) (mean : Bool) :
    (∃ c, callEwmas label f pairs mv mc clipAt mean = .ok c) ↔
      ∀ p ∈ pairs, ∃ rs, iteratedEwma f (ewmasArgs mv mc clipAt mean p).toArgs = .ok rs ∧
        (LastPair label pairs p → ∀ r ∈ rs, GoodCov r) := by
  refine ⟨?_, C41_succeeds hn label hd hf hp mv mc clipAt mean⟩
  rintro ⟨c, hc⟩ p hpp
  rcases callEwmas_cases hn label hd hf hp mv mc clipAt mean with ⟨_, he⟩ | ⟨hok, _⟩
  · rw [hc] at he; cases he
  refine ⟨_, hok p hpp, fun hl => ?_⟩
  obtain ⟨_, hlab, p', rs, hlast, hrs, hgood, _⟩ := C41_as_from_sigmas hn label hd hf hp mv mc clipAt mean hc
  obtain ⟨k, hk, hk'⟩ := List.getElem_of_mem ((hlab (label (xrPair p))).mpr ⟨p, hpp, rfl⟩)
  have hk0 : c.labels[k] = label (xrPair p) := hk'
  have e : p' ⟨k, hk⟩ = p := by
    apply lastPair_unique (hlast ⟨k, hk⟩)
    obtain ⟨pre, post, e, h⟩ := hl
    exact ⟨pre, post, e, hk0.symm, fun q hq => by rw [hk0]; exact h q hq⟩
  have h1 := hrs ⟨k, hk⟩
  rw [e, hok p hpp] at h1
  rw [Except.ok.inj h1]
  exact hgood ⟨k, hk⟩

/-- **C41.** When `from_ewmas` succeeds and one of its experts has a result, `iterated_ewma` yields results for the same
times for all pairs (also for those whose label is taken by a later pair). -/
theorem C41_same_times (hn : 0 < n) (label : XR × XR → L) {f : Frame τ (Fin n) XR} {T : ℕ} {tm : ℕ → τ}
    (hd : DistinctTimes T tm) {x : ℕ → Fin n → ℝ} (hf : Represents f true T tm x) {pairs : List (ℝ × ℝ)}
    (hp : PosPairs pairs) (mv mc : Int) (clipAt : Option ℝ) (mean : Bool) {c : EwmaComb L τ n}
    (h : callEwmas label f pairs mv mc clipAt mean = .ok c) (hrows : c.comb.rows ≠ []) {q q' : ℝ × ℝ} (hq : q ∈ pairs)
    (hq' : q' ∈ pairs) {rs rs' : List (IEWMA τ (Fin n) XR)}
    (hrs : iteratedEwma f (ewmasArgs mv mc clipAt mean q).toArgs = .ok rs)
    (hrs' : iteratedEwma f (ewmasArgs mv mc clipAt mean q').toArgs = .ok rs') :
    rs.map IEWMA.time = rs'.map IEWMA.time := by
  obtain ⟨_, _, p, rr, hlast, hrr, hgood, hfs⟩ := C41_as_from_sigmas hn label hd hf hp mv mc clipAt mean h
  obtain ⟨row, hrow⟩ := List.exists_mem_of_ne_nil _ hrows
  obtain ⟨m, Ls, _, hL, hF, _⟩ := fromSigmas_inv hfs
  obtain ⟨t, ht, _⟩ := forall₂_mem_right hF hrow
  obtain ⟨k, hk⟩ := mem_frameIndex.mp ht
  rw [choleskyPrecision_keys (hL k)] at hk
  have hne : rr k ≠ [] := by
    intro h0
    rw [h0] at hk
    simp [Dict.keys] at hk
  have hin : p k ∈ pairs := by
    obtain ⟨pre, post, e, _⟩ := hlast k
    rw [e]; simp
  have hok : ∀ p ∈ pairs, iteratedEwma f (ewmasArgs mv mc clipAt mean p).toArgs
        = .ok (expertResults mv mc clipAt mean T tm x p) := by
    rcases callEwmas_cases hn label hd hf hp mv mc clipAt mean with ⟨_, he⟩ | ⟨hok, _⟩
    · rw [h] at he; cases he
    · exact hok
  have hrr' : rr k = expertResults mv mc clipAt mean T tm x (p k) := by
    have := hok _ hin
    rw [hrr k] at this
    exact Except.ok.inj this
  have vp := ewmasArgs_valid (hp _ hin) mv mc clipAt mean
  have hst : Started (ewmasArgs mv mc clipAt mean (p k)) x := by
    by_contra hs
    obtain ⟨r, hr⟩ := List.exists_mem_of_ne_nil _ hne
    have hg := hgood k r hr
    rw [hrr'] at hr
    obtain ⟨j, _, rfl⟩ := List.mem_map.mp hr
    exact ((goodCov_iff _ T tm x j).mp hg).1 ⟨0, hn⟩ (vol_zero_of_not_started vp hs _ _)
  have key : ∀ u ∈ pairs, ∀ ru, iteratedEwma f (ewmasArgs mv mc clipAt mean u).toArgs = .ok ru →
      ru.map IEWMA.time = (resultRows mv mc clipAt mean T x (p k)).map tm := by
    intro u hu ru hru
    rw [hok u hu] at hru
    cases hru
    rw [resultRows_times]
    unfold resultRows
    rw [live_congr vp (ewmasArgs_valid (hp _ hu) mv mc clipAt mean) rfl rfl rfl hst]
  rw [key q hq rs hrs, key q' hq' rs' hrs']

/-- the panel of the experts with the half-lives `p k` -/
noncomputable def ewmaPanel (mv mc : Int) (clipAt : Option ℝ) (mean : Bool) (T : ℕ) (tm : ℕ → τ) (x : ℕ → Fin n → ℝ)
    {K : ℕ} (p : Fin K → ℝ × ℝ) (rows : List ℕ) : Panel τ n K where
  len := rows.length
  time t := tm (rows.getD t 0)
  cov t k := realCov (itemAt (ewmasArgs mv mc clipAt mean (p k)) T tm x (t + (mc - 1).toNat))
  mean t k := fun i => ((itemAt (ewmasArgs mv mc clipAt mean (p k)) T tm x (t + (mc - 1).toNat)).mean i).toReal
  ret t := x (rows.getD t 0)

theorem resultRows_getD_lt {mv mc : Int} {clipAt : Option ℝ} {mean : Bool} {T : ℕ} {x : ℕ → Fin n → ℝ} {p : ℝ × ℝ} {t : ℕ}
    (ht : t < (resultRows mv mc clipAt mean T x p).length) : (resultRows mv mc clipAt mean T x p).getD t 0 < T := by
  rw [getD_lt ht]
  have := List.getElem_mem ht
  unfold resultRows at this
  obtain ⟨j, hj, e⟩ := List.mem_map.mp this
  show (resultRows mv mc clipAt mean T x p)[t] < T
  unfold resultRows
  rw [← e]
  exact live_lt (mem_rowsFrom.mp hj).1

theorem expertResults_eq (mv mc : Int) (clipAt : Option ℝ) (mean : Bool) (T : ℕ) (tm : ℕ → τ) (x : ℕ → Fin n → ℝ)
    (p : ℝ × ℝ) : expertResults mv mc clipAt mean T tm x p
      = (List.range (resultRows mv mc clipAt mean T x p).length).map fun t =>
        itemAt (ewmasArgs mv mc clipAt mean p) T tm x (t + (mc - 1).toNat) := by
  unfold expertResults resultRows
  simp only [List.length_map]
  rw [rowsFrom_eq_drop]
  apply List.ext_getElem
  · simp
  · intro i h1 h2
    simp [Nat.add_comm]

theorem realReturns_lookup {f : Frame τ (Fin n) XR} {T : ℕ} {tm : ℕ → τ} {x : ℕ → Fin n → ℝ} {b : Bool}
    (htm : ∀ s t, s < t → t < T → tm s < tm t) (hf : Represents f b T tm x) {t : ℕ} (ht : t < T) :
    (realReturns f).lookup (tm t) = some (x t) := by
  obtain ⟨R, rfl, hR⟩ := hf
  unfold realReturns
  rw [List.map_map]
  have := lookup_map_range htm (fun t => (fun i => (R t i).toReal : Vec n)) t ht
  simp only [Function.comp_def]
  rw [this]
  congr 1
  funext i
  rcases hR t ht i with h | ⟨_, h, h'⟩
  · rw [h]; rfl
  · rw [h, h']; rfl

/-- **C41.** For increasing time stamps and at least one pair, the object `from_ewmas` returns is a panel of
aligned experts: position `t` of the panel has, for every expert, the time, the covariance and the mean of its `t`-th
`iterated_ewma` result (for the last pair with its label), and the return of that time (missing entries as 0). So all theorems about `solve` apply. -/
theorem C41_panel (hn : 0 < n) (label : XR × XR → L) {f : Frame τ (Fin n) XR} {T : ℕ} {tm : ℕ → τ}
    (htm : ∀ s t, s < t → t < T → tm s < tm t) {x : ℕ → Fin n → ℝ} (hf : Represents f true T tm x)
    {pairs : List (ℝ × ℝ)} (hp : PosPairs pairs) (hne : pairs ≠ []) (mv mc : Int) (clipAt : Option ℝ) (mean : Bool)
    {c : EwmaComb L τ n} (h : callEwmas label f pairs mv mc clipAt mean = .ok c) :
    ∃ P : Panel τ n c.labels.length, P.Gives (realReturns f) c.comb ∧
      (∀ t < P.len, ∃ s < T, P.time t = tm s ∧ P.ret t = x s) ∧
      ∀ k : Fin c.labels.length, ∃ p, (∃ pre post, pairs = pre ++ p :: post ∧ label (xrPair p) = c.labels[k.1] ∧
          ∀ q ∈ post, label (xrPair q) ≠ c.labels[k.1]) ∧
        ∃ rs, iteratedEwma f (ewmasArgs mv mc clipAt mean p).toArgs = .ok rs ∧ rs.length = P.len ∧
          ∀ t (ht : t < rs.length), (rs[t]).time = P.time t ∧
            (∀ i j, (rs[t]).covariance (i, j) = fin (P.cov t k i j)) ∧ ∀ i, (rs[t]).mean i = fin (P.mean t k i) := by
  have hd : DistinctTimes T tm := by
    intro s t hs ht e
    rcases lt_trichotomy s t with h1 | h1 | h1
    · exact absurd e (htm s t h1 ht).ne
    · exact h1
    · exact absurd e (htm t s h1 hs).ne'
  obtain ⟨_, hlab, p, rs, hlast, hrs, hgood, hfs⟩ := C41_as_from_sigmas hn label hd hf hp mv mc clipAt mean h
  have hin : ∀ k, p k ∈ pairs := by
    intro k
    obtain ⟨pre, post, e, _⟩ := hlast k
    rw [e]; simp
  have hrs' : ∀ k, rs k = expertResults mv mc clipAt mean T tm x (p k) := by
    intro k
    rcases callEwmas_cases hn label hd hf hp mv mc clipAt mean with ⟨_, he⟩ | ⟨hok, _⟩
    · rw [h] at he; cases he
    · have := hok _ (hin k)
      rw [hrs k] at this
      exact Except.ok.inj this
  have hK : 0 < c.labels.length := by
    obtain ⟨q, hq⟩ := List.exists_mem_of_ne_nil _ hne
    exact List.length_pos_of_mem ((hlab _).mpr ⟨q, hq, rfl⟩)
  set rows := resultRows mv mc clipAt mean T x (p ⟨0, hK⟩) with hrows
  have hsame : ∀ k, resultRows mv mc clipAt mean T x (p k) = rows := by
    intro k
    rw [hrows]
    apply resultRows_same hn mv mc clipAt mean T tm x (hp _ (hin _)) (hp _ (hin _))
    · rw [← hrs']; exact hgood _
    · rw [← hrs']; exact hgood _
  have hexp : ∀ k, rs k = (List.range rows.length).map fun t =>
        itemAt (ewmasArgs mv mc clipAt mean (p k)) T tm x (t + (mc - 1).toNat) := by
    intro k
    rw [hrs', expertResults_eq, hsame]
  have htime : ∀ k t, t < rows.length →
      (itemAt (ewmasArgs mv mc clipAt mean (p k)) T tm x (t + (mc - 1).toNat)).time = tm (rows.getD t 0) := by
    intro k t ht
    have := resultRows_times mv mc clipAt mean T tm x (p k)
    rw [← hrs', hexp, hsame, List.map_map] at this
    have h2 := congrArg (fun l => l[t]?) this
    simp only [List.getElem?_map, List.getElem?_range ht, List.getElem?_eq_getElem ht, Option.map_some,
      Option.some.injEq, Function.comp] at h2
    rw [h2, getD_lt ht]
  have hsorted : rows.Pairwise (· < ·) := result_rows_sorted _ _ _ _
  have hsig : ∀ k, ((rs k).map fun r => (r.time, realCov r)) = (ewmaPanel mv mc clipAt mean T tm x p rows).sigmas k := by
    intro k
    rw [hexp, List.map_map]
    apply List.map_congr_left
    intro t ht
    simp only [Function.comp]
    rw [htime k t (List.mem_range.mp ht)]
    rfl
  have hmean : ∀ k, ((rs k).map fun r => (r.time, (fun i => (r.mean i).toReal : Vec n)))
      = (ewmaPanel mv mc clipAt mean T tm x p rows).means k := by
    intro k
    rw [hexp, List.map_map]
    apply List.map_congr_left
    intro t ht
    simp only [Function.comp]
    rw [htime k t (List.mem_range.mp ht)]
    rfl
  have hmemrs : ∀ k t, t < rows.length →
      itemAt (ewmasArgs mv mc clipAt mean (p k)) T tm x (t + (mc - 1).toNat) ∈ rs k := fun k t ht => by
    rw [hexp]; exact List.mem_map.mpr ⟨t, List.mem_range.mpr ht, rfl⟩
  refine ⟨ewmaPanel mv mc clipAt mean T tm x p rows, ⟨⟨?_, ?_⟩, ?_, hK, Or.inl ?_⟩, ?_, ?_⟩
  · intro s t hst ht
    show tm _ < tm _
    apply htm
    · have ht' : t < rows.length := ht
      rw [getD_lt (by omega), getD_lt ht']
      exact List.pairwise_iff_getElem.mp hsorted s t (by omega) ht' hst
    · exact resultRows_getD_lt ht
  · intro t ht k
    exact (hgood k _ (hmemrs k t ht)).posDef
  · intro t _ ht
    exact realReturns_lookup htm hf (resultRows_getD_lt ht)
  · have e1 := funext hsig
    have e2 : (fun k => some ((rs k).map fun r => (r.time, (fun i => (r.mean i).toReal : Vec n))))
        = fun k => some ((ewmaPanel mv mc clipAt mean T tm x p rows).means k) := funext fun k => congrArg some (hmean k)
    rw [← e1, ← e2]
    exact hfs
  · intro t ht
    exact ⟨_, resultRows_getD_lt ht, rfl, rfl⟩
  · intro k
    refine ⟨p k, hlast k, rs k, hrs k, ?_, ?_⟩
    · rw [hexp]; simp [ewmaPanel]
    · intro t ht
      have ht' : t < rows.length := by rw [hexp] at ht; simpa using ht
      have e : (rs k)[t] = itemAt (ewmasArgs mv mc clipAt mean (p k)) T tm x (t + (mc - 1).toNat) := by
        have h1 : (rs k)[t]? = some (itemAt (ewmasArgs mv mc clipAt mean (p k)) T tm x (t + (mc - 1).toNat)) := by
          rw [hexp k]; simp [ht']
        rw [List.getElem?_eq_getElem ht] at h1
        exact Option.some.inj h1
      rw [e]
      refine ⟨htime k t ht', ?_, ?_⟩
      · intro i j
        obtain ⟨v, hv⟩ := (hgood k _ (hmemrs k t ht')).finite (i, j)
        show _ = fin (realCov (itemAt (ewmasArgs mv mc clipAt mean (p k)) T tm x (t + (mc - 1).toNat)) i j)
        unfold realCov
        rw [Matrix.of_apply, hv]
        rfl
      · intro i
        show _ = fin (((itemAt (ewmasArgs mv mc clipAt mean (p k)) T tm x (t + (mc - 1).toNat)).mean i).toReal)
        simp [itemAt, finRow, XR.toReal]

/-! ### C69 -/

/-- **C69.** `from_ewmas` can only succeed with a non-empty panel if `min_periods_cov` is at least the number of assets
(the number of assets plus one with `mean=True`): otherwise the first covariance of every expert is singular. -/
theorem C69_min_periods (hn : 0 < n) (label : XR × XR → L) {f : Frame τ (Fin n) XR} {T : ℕ} {tm : ℕ → τ}
    (hd : DistinctTimes T tm) {x : ℕ → Fin n → ℝ} (hf : Represents f true T tm x) {pairs : List (ℝ × ℝ)}
    (hp : PosPairs pairs) (mv mc : Int) (clipAt : Option ℝ) (mean : Bool) {c : EwmaComb L τ n}
    (h : callEwmas label f pairs mv mc clipAt mean = .ok c) (hrows : c.comb.rows ≠ []) :
    (n : Int) ≤ max mc 1 ∧ (mean = true → (n : Int) + 1 ≤ mc) := by
  obtain ⟨_, _, p, rs, hlast, hrs, hgood, hfs⟩ := C41_as_from_sigmas hn label hd hf hp mv mc clipAt mean h
  obtain ⟨row, hrow⟩ := List.exists_mem_of_ne_nil _ hrows
  obtain ⟨m, Ls, _, hL, hF, _⟩ := fromSigmas_inv hfs
  obtain ⟨t, ht, _⟩ := forall₂_mem_right hF hrow
  obtain ⟨k, hk⟩ := mem_frameIndex.mp ht
  rw [choleskyPrecision_keys (hL k)] at hk
  have hne : rs k ≠ [] := by
    intro h0
    rw [h0] at hk
    simp [Dict.keys] at hk
  have hin : p k ∈ pairs := by
    obtain ⟨pre, post, e, _⟩ := hlast k
    rw [e]; simp
  have hrs' : rs k = expertResults mv mc clipAt mean T tm x (p k) := by
    rcases callEwmas_cases hn label hd hf hp mv mc clipAt mean with ⟨_, he⟩ | ⟨hok, _⟩
    · rw [h] at he; cases he
    · have := hok _ hin
      rw [hrs k] at this
      exact Except.ok.inj this
  rw [expertResults_eq] at hrs'
  have hlen : 0 < (resultRows mv mc clipAt mean T x (p k)).length := by
    rcases Nat.eq_zero_or_pos (resultRows mv mc clipAt mean T x (p k)).length with h0 | h0
    · rw [h0] at hrs'; exact absurd hrs' hne
    · exact h0
  have hg := hgood k (itemAt (ewmasArgs mv mc clipAt mean (p k)) T tm x (0 + (mc - 1).toNat)) (by
    rw [hrs']; exact List.mem_map.mpr ⟨0, List.mem_range.mpr hlen, rfl⟩)
  obtain ⟨h1, h2⟩ := goodCov_rank hg
  refine ⟨by omega, fun hm => ?_⟩
  have := h2 hm
  omega

/-- **C69.** Exactly when a covariance of `iterated_ewma` is finite and positive definite: all volatilities are
non-zero and no portfolio has zero adjusted (centred) return in all rows up to this result. -/
theorem C69_nonsingular_iff (hn : 0 < n) {f : Frame τ (Fin n) XR} {a : RealArgs} (ha : a.Valid) {T : ℕ} {tm : ℕ → τ}
    (hd : DistinctTimes T tm) {x : ℕ → Fin n → ℝ} (hf : Represents f a.nanToNum T tm x) {rs : List (IEWMA τ (Fin n) XR)}
    (h : iteratedEwma f a.toArgs = .ok rs) (t : ℕ) (ht : t < rs.length) :
    GoodCov rs[t] ↔ (∀ i, (rs[t]).volatility i ≠ fin 0) ∧
      ∀ u : Fin n → ℝ, (∀ k ≤ t + (a.minPeriodsCov - 1).toNat, ∑ i, u i * zAt a T x k i = 0) → u = 0 := by
  have : Nonempty (Fin n) := ⟨⟨0, hn⟩⟩
  obtain ⟨_, rfl⟩ := results_of_ok ha hd hf h
  have e : ((rowsFrom a.minPeriodsCov (live a T x).length).map (itemAt a T tm x))[t]
      = itemAt a T tm x (t + (a.minPeriodsCov - 1).toNat) := by
    rw [List.getElem_map]
    congr 1
    simp only [rowsFrom_eq_drop, List.getElem_drop, List.getElem_range]
    omega
  rw [e, goodCov_iff]
  simp [itemAt, finRow]

/-! ### an example: two assets, one missing entry, three pairs with two labels -/

namespace EwEx

/-- pairs; the first and the last are equal -/
def pairs : List (ℝ × ℝ) := [(2, 3), (1, 4), (2, 3)]

theorem pos : PosPairs pairs := by
  intro p hp
  simp only [pairs, List.mem_cons, List.not_mem_nil, or_false] at hp
  rcases hp with rfl | rfl | rfl <;> norm_num

theorem live_eq (p : ℝ × ℝ) (hp : 0 < p.1 ∧ 0 < p.2) : live (ewmasArgs 1 2 none false p) 3 Ex.x = [0, 1, 2] := by
  rw [← Ex.live_eq]
  exact live_congr (ewmasArgs_valid hp 1 2 none false) Ex.valid rfl rfl rfl (Or.inl rfl) 3

theorem good (p : ℝ × ℝ) (hp : 0 < p.1 ∧ 0 < p.2) {j : ℕ} (hj : 1 ≤ j) (hj' : j < 3) :
    GoodCov (itemAt (ewmasArgs 1 2 none false p) 3 (id : ℕ → ℕ) Ex.x j) := by
  have hv := ewmasArgs_valid hp 1 2 none false
  have hvol : ∀ t i, vol (ewmasArgs 1 2 none false p) Ex.x t i ≠ 0 := by
    intro t i h0
    have := (volSq_zero_iff hv Ex.x t i).mp h0 0 (by omega) (Or.inl rfl)
    have e : cRet (ewmasArgs 1 2 none false p) Ex.x 0 i = Ex.x 0 i := by simp [cRet, muOf, ewmasArgs]
    rw [e] at this
    fin_cases i <;> simp [Ex.x] at this
  have hz : ∀ k < 3, ∀ i, zAt (ewmasArgs 1 2 none false p) 3 Ex.x k i
      = Ex.x k i / vol (ewmasArgs 1 2 none false p) Ex.x k i := by
    intro k hk i
    have e : ([0, 1, 2] : List ℕ).getD k 0 = k := by
      have : k = 0 ∨ k = 1 ∨ k = 2 := by omega
      rcases this with rfl | rfl | rfl <;> rfl
    unfold zAt adjAt adjReal
    rw [live_eq p hp, e]
    simp [ewmasArgs, muOf, RealArgs.clip, cRet]
  rw [goodCov_iff]
  refine ⟨fun i => hvol _ i, fun u hu => ?_⟩
  have h1 := hu 1 hj
  have h0 := hu 0 (by omega)
  rw [Fin.sum_univ_two, hz 1 (by omega), hz 1 (by omega)] at h1
  rw [Fin.sum_univ_two, hz 0 (by omega), hz 0 (by omega)] at h0
  have v10 := hvol 1 0
  have v01 := hvol 0 1
  have x10 : Ex.x 1 0 = 2 := by norm_num [Ex.x]
  have x11 : Ex.x 1 1 = 0 := by norm_num [Ex.x]
  have x01 : Ex.x 0 1 = 2 := by norm_num [Ex.x]
  rw [x10, x11] at h1
  have u0 : u 0 = 0 := by
    simp only [zero_div, mul_zero, add_zero] at h1
    rcases mul_eq_zero.mp h1 with h | h
    · exact h
    · exact absurd h (div_ne_zero two_ne_zero v10)
  rw [u0, x01, zero_mul, zero_add] at h0
  have u1 : u 1 = 0 := by
    rcases mul_eq_zero.mp h0 with h | h
    · exact h
    · exact absurd h (div_ne_zero two_ne_zero v01)
  funext i
  fin_cases i
  · exact u0
  · exact u1

theorem runs (p : ℝ × ℝ) (hp : 0 < p.1 ∧ 0 < p.2) : iteratedEwma Ex.frame (ewmasArgs 1 2 none false p).toArgs
    = .ok [itemAt (ewmasArgs 1 2 none false p) 3 id Ex.x 1, itemAt (ewmasArgs 1 2 none false p) 3 id Ex.x 2] := by
  rw [iteratedEwma_spec (ewmasArgs_valid hp 1 2 none false) Ex.distinct
    (show Represents Ex.frame (ewmasArgs 1 2 none false p).nanToNum 3 id Ex.x from Ex.represents), live_eq p hp]
  have : rowsFrom (ewmasArgs 1 2 none false p).minPeriodsCov 3 = [1, 2] := by
    show rowsFrom 2 3 = [1, 2]
    decide
  simp [this]

/-- The call succeeds: the hypotheses of the C41 and C69 theorems are met (`id` as the formatting of the pairs). -/
theorem succeeds [DecidableEq (XR × XR)] : ∃ c, callEwmas id Ex.frame pairs 1 2 none false = .ok c := by
  apply C41_succeeds (by norm_num) id Ex.distinct Ex.represents pos
  intro p hpp
  refine ⟨_, runs p (pos p hpp), ?_⟩
  intro _ r hr
  simp only [List.mem_cons, List.not_mem_nil, or_false] at hr
  rcases hr with rfl | rfl
  · exact good p (pos p hpp) (by norm_num) (by norm_num)
  · exact good p (pos p hpp) (by norm_num) (by norm_num)

/-- It has two experts, each with two predictions. -/
example [DecidableEq (XR × XR)] : ∃ c, callEwmas id Ex.frame pairs 1 2 none false = .ok c ∧ c.labels.length = 2 ∧
    ∃ P : Panel ℕ 2 c.labels.length, P.Gives (realReturns Ex.frame) c.comb ∧ P.len = 2 := by
  obtain ⟨c, hc⟩ := succeeds
  have h1 := C41_as_from_sigmas (by norm_num) id Ex.distinct Ex.represents pos 1 2 none false hc
  have hperm : c.labels.Perm [xrPair (2, 3), xrPair (1, 4)] := by
    rw [List.perm_ext_iff_of_nodup h1.1 (by simp [xrPair])]
    intro l
    rw [h1.2.1]
    simp only [pairs, List.mem_cons, List.not_mem_nil, or_false]
    constructor
    · rintro ⟨p, rfl | rfl | rfl, rfl⟩ <;> simp
    · rintro (rfl | rfl)
      · exact ⟨_, Or.inl rfl, rfl⟩
      · exact ⟨_, Or.inr (Or.inl rfl), rfl⟩
  have hlen := hperm.length_eq
  obtain ⟨P, hP, _, hk⟩ := C41_panel (by norm_num) id (fun s t h _ => h) Ex.represents pos (by simp [pairs]) 1 2 none
    false hc
  refine ⟨c, hc, hlen, P, hP, ?_⟩
  obtain ⟨p, ⟨pre, post, e, _⟩, rs, hrs, hl, _⟩ := hk ⟨0, by rw [hlen]; norm_num⟩
  have hpp : p ∈ pairs := by rw [e]; simp
  rw [runs p (pos p hpp)] at hrs
  cases hrs
  exact hl.symm

/-- With `min_periods_cov = 1` the same call cannot give a non-empty panel (C69). -/
example [DecidableEq (XR × XR)] : ∀ c, callEwmas id Ex.frame pairs 1 1 none false = .ok c → c.comb.rows = [] := by
  intro c hc
  by_contra hne
  have := (C69_min_periods (by norm_num) id Ex.distinct Ex.represents pos 1 1 none false hc hne).1
  norm_num at this

end EwEx

end CovPred
