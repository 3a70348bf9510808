import Verif.Model.FactorModel
import Verif.Model.Readme
import Verif.Spec.FactorModel
import Verif.Props.FromEwmas
import Verif.Props.Solve
import Verif.Props.IewmaMore
import Verif.Lemmas.LowRankEwma

/-
Lemmas for the factor model (experiments/utils/factor_model.py).
-/
set_option linter.unusedSectionVars false
namespace CovPred
open Matrix XR

variable {τ : Type} [LinearOrder τ] {n k : ℕ} {L : Type} [DecidableEq L]

theorem factorArgs_valid {p : ℝ × ℝ} (h : 0 < p.1 ∧ 0 < p.2) : (factorArgs k p).Valid :=
  ⟨h.1, h.2, (by intro h hh; cases hh), (by intro h hh; cases hh)⟩

/-- A run through all results gives the same dictionary, as a list or in a loop. -/
theorem listDict_ok_iff {n K : ℕ} (tr : Trace (Result τ n K)) (d : Dict τ (Mat n)) :
    listDict tr = .ok d ↔ resultDict tr = .ok d := by
  unfold listDict resultDict
  rcases tr.err with _ | e <;> rcases tr.items.mapM timeAndCov with e' | items <;>
    first | exact Iff.rfl | exact ⟨fun h => (by cases h), fun h => (by cases h)⟩

theorem bind_listDict_ok_iff {n K : ℕ} {A : Type} (c : Except Err A) (f : A → Trace (Result τ n K)) (d : Dict τ (Mat n)) :
    (do let comb ← c
        listDict (f comb)) = .ok d ↔ (do let comb ← c
                                         resultDict (f comb)) = .ok d := by
  rcases c with e | c
  · exact Iff.rfl
  · exact listDict_ok_iff _ _

/-- The `j`-th item depends on the rows up to the `j`-th live row only. -/
theorem itemAt_congr {ι : Type} [Ix ι] {a : RealArgs} (hm : a.mean = false) {T T' : ℕ} (tm : ℕ → τ) (x : ℕ → ι → ℝ) {j : ℕ}
    (h : ∀ i ≤ j, (live a T x).getD i 0 = (live a T' x).getD i 0) : itemAt a T tm x j = itemAt a T' tm x j := by
  have hadj : ∀ i ≤ j, adjAt a T x i = adjAt a T' x i := fun i hi => by
    funext c; unfold adjAt; rw [h i hi]
  have hz : ∀ i ≤ j, zAt a T x i = zAt a T' x i := fun i hi => by
    funext c; unfold zAt muOf; rw [hadj i hi, hm]; simp
  have hcov : ∀ p, covAt a T x j p = covAt a T' x j p := fun p => by
    unfold covAt halflifeAverage
    congr 1
    apply Finset.sum_congr rfl
    intro i hi
    simp only [hz i (by rw [Finset.mem_range] at hi; omega)]
  have hmean : meanAt a T x j = meanAt a T' x j := by
    funext i; unfold meanAt; rw [hm]; simp
  have hsig : sigmaAt a T x j = sigmaAt a T' x j := by
    funext p; unfold sigmaAt; simp only [hcov, h j le_rfl]
  unfold itemAt
  rw [hmean, hsig, h j le_rfl]

theorem distinct_of_increasing {T : ℕ} {tm : ℕ → τ} (h : Increasing T tm) : DistinctTimes T tm := by
  intro s t hs ht e
  rcases lt_trichotomy s t with h1 | h1 | h1
  · exact absurd e (h s t h1 ht).ne
  · exact h1
  · exact absurd e (h t s h1 hs).ne'

theorem live_factor {p : ℝ × ℝ} (hp : 0 < p.1 ∧ 0 < p.2) {f : ℕ → Vec k} (hf : Awake f) (N : ℕ) :
    live (factorArgs k p) N f = List.range' (k - 1) (N - (k - 1)) := by
  obtain ⟨s, hs, hne⟩ := hf
  obtain ⟨i, hi⟩ := Function.ne_iff.mp hne
  have hc : cRet (factorArgs k p) f s i ≠ 0 := by
    simpa [cRet, muOf, factorArgs] using hi
  rw [live_active (factorArgs_valid hp) (i := i) (k := s) (Or.inl (by simp only [factorArgs]; omega)) hc, rowsFrom_eq_drop]
  rw [List.range_eq_range', drop_range']
  simp [factorArgs]

theorem live_factor_getD {p : ℝ × ℝ} (hp : 0 < p.1 ∧ 0 < p.2) {f : ℕ → Vec k} (hf : Awake f) {N j : ℕ}
    (h : j < N - (k - 1)) : (live (factorArgs k p) N f).getD j 0 = k - 1 + j := by
  rw [live_factor hp hf, getD_lt (by simpa using h)]
  simp

/-- The results of an expert, for `3 k - 2 < N` rows. -/
theorem iterated_factor (hk : 0 < k) {p : ℝ × ℝ} (hp : 0 < p.1 ∧ 0 < p.2) {f : ℕ → Vec k} (hf : Awake f) {N : ℕ}
    {tm : ℕ → τ} (htm : Increasing N tm) (hN : k ≤ N) :
    iteratedEwma (finFrame N tm f) (factorArgs k p).toArgs
      = .ok ((List.range' (3 * k - 2) (N - (3 * k - 2))).map fun s =>
          itemAt (factorArgs k p) (s + 1) tm f (s + 1 - k)) := by
  have : Nonempty (Fin k) := ⟨⟨0, hk⟩⟩
  rw [iteratedEwma_fin (factorArgs_valid hp) (distinct_of_increasing htm) f, if_neg]
  · congr 1
    rw [live_factor hp hf, rowsFrom_eq_drop, List.length_range', List.range_eq_range', drop_range']
    apply List.ext_getElem
    · simp [factorArgs]; omega
    · intro i h1 h2
      simp only [List.getElem_map, List.getElem_range', one_mul, List.length_map, List.length_range'] at h1 h2 ⊢
      have e : 0 + ((factorArgs k p).minPeriodsCov - 1).toNat + i = 3 * k - 2 + i + 1 - k := by simp [factorArgs]; omega
      rw [e]
      apply itemAt_congr rfl
      intro j hj
      rw [live_factor_getD hp hf (by omega), live_factor_getD hp hf (by omega)]
  · rw [live_factor hp hf]
    intro h
    have := congrArg List.length h
    simp at this
    omega

/-- Keeping the labels from `tm s0` on. -/
theorem filter_start {A : Type} {N : ℕ} {tm : ℕ → τ} (htm : Increasing N tm) (v : ℕ → A) {m s0 : ℕ} (hs : m ≤ s0) (h0 : s0 < N) :
    ((List.range' m (N - m)).map fun s => (tm s, v s)).filter (fun p => tm s0 ≤ p.1)
      = (List.range' s0 (N - s0)).map fun s => (tm s, v s) := by
  have e : List.range' m (N - m) = List.range' m (s0 - m) ++ List.range' s0 (N - s0) := by
    rw [show N - m = (s0 - m) + (N - s0) by omega, ← List.range'_append_1, show m + (s0 - m) = s0 by omega]
  rw [e, List.map_append, List.filter_append, List.filter_eq_nil_iff.mpr, List.nil_append, List.filter_eq_self.mpr]
  · intro q hq
    obtain ⟨s, hs', rfl⟩ := List.mem_map.mp hq
    rw [List.mem_range'_1] at hs'
    rcases Nat.lt_or_ge s0 s with h | h
    · simpa using (htm s0 s h (by omega)).le
    · have : s = s0 := by omega
      subst this; simp
  · intro q hq
    obtain ⟨s, hs', rfl⟩ := List.mem_map.mp hq
    rw [List.mem_range'_1] at hs'
    simpa using htm s s0 (by omega) h0

/-- Keeping the labels up to `tm e`. -/
theorem filter_end {A : Type} {N : ℕ} {tm : ℕ → τ} (htm : Increasing N tm) (v : ℕ → A) {e : ℕ} (h0 : e < N) :
    (rowDict N tm v).filter (fun p => p.1 ≤ tm e) = rowDict (e + 1) tm v := by
  unfold rowDict
  have he : List.range N = List.range (e + 1) ++ List.range' (e + 1) (N - (e + 1)) := by
    rw [List.range_eq_range', List.range_eq_range']
    conv_lhs => rw [show N = (e + 1) + (N - (e + 1)) by omega, ← List.range'_append_1]
    simp
  rw [he, List.map_append, List.filter_append, List.filter_eq_self.mpr, List.filter_eq_nil_iff.mpr, List.append_nil]
  · intro q hq
    obtain ⟨s, hs', rfl⟩ := List.mem_map.mp hq
    rw [List.mem_range'_1] at hs'
    simpa using htm e s (by omega) (by omega)
  · intro q hq
    obtain ⟨s, hs', rfl⟩ := List.mem_map.mp hq
    rw [List.mem_range] at hs'
    rcases Nat.lt_or_ge s e with h | h
    · simpa using (htm s e h (by omega)).le
    · have : s = e := by omega
      subst this; simp

/-! ### `construct_factor_covariance` -/

/-- factor_model.py:41-49 for `K` experts -/
noncomputable def factorTail (solvers : Solvers k) (factors : Dict τ (Vec k)) (fast : L) (K : ℕ) (lab : Fin K → L)
    (dict : Fin K → Dict τ (Arr (Fin k × Fin k) XR)) : Except Err (Dict τ (Mat k)) := do
  let sigmas ← finM fun i => finiteCovs (dict i)
  let sigmas := fun i : Fin K => if lab i = fast then addToDiagonal (sigmas i) 0.05 else sigmas i
  let comb ← fromSigmas sigmas factors none
  listDict (comb.solve (solvers K) (some 10) none)

theorem factorTail_cast (solvers : Solvers k) (factors : Dict τ (Vec k)) (fast : L) {K K' : ℕ} (h : K = K')
    {lab : Fin K → L} {lab' : Fin K' → L} {dict : Fin K → Dict τ (Arr (Fin k × Fin k) XR)}
    {dict' : Fin K' → Dict τ (Arr (Fin k × Fin k) XR)} (h1 : ∀ i, lab i = lab' (Fin.cast h i))
    (h2 : ∀ i, dict i = dict' (Fin.cast h i)) :
    factorTail solvers factors fast K lab dict = factorTail solvers factors fast K' lab' dict' := by
  subst h
  have e1 : lab = lab' := funext fun i => h1 i
  have e2 : dict = dict' := funext fun i => h2 i
  rw [e1, e2]

theorem factorTail_list {Q : Type} (solvers : Solvers k) (factors : Dict τ (Vec k)) (fast : L)
    (X : List (L × Dict τ (Arr (Fin k × Fin k) XR))) (E : List (L × Q)) (g : Q → Dict τ (Arr (Fin k × Fin k) XR))
    (h : X = E.map fun q => (q.1, g q.2)) :
    factorTail solvers factors fast (X.map Prod.fst).length (fun i => (X.map Prod.fst)[i.1])
        (fun i => (X[i.1]?.map Prod.snd).getD [])
      = factorTail solvers factors fast E.length (fun i => E[i].1) (fun i => g E[i].2) := by
  subst h
  apply factorTail_cast
  · intro i
    simp
  · intro i
    have hi : i.1 < E.length := by simpa using i.2
    rw [List.getElem?_map, List.getElem?_eq_getElem hi]
    rfl
  · simp

/-- a pair of half-lives as the code sees it -/
abbrev xr (p : ℝ × ℝ) : XR × XR := (fin p.1, fin p.2)

/-- the covariances of the expert `q` from row `m` on -/
noncomputable def iewmaRows (tm : ℕ → τ) (f : ℕ → Vec k) (N m : ℕ) (q : XR × XR) : Dict τ (Arr (Fin k × Fin k) XR) :=
  (List.range' m (N - m)).map fun s => (tm s, (itemAt (factorArgs k (unPair q)) (s + 1) tm f (s + 1 - k)).covariance)

theorem iewmaDict_ok (hk : 0 < k) (label : XR × XR → L) {f : ℕ → Vec k} (hf : Awake f) {N : ℕ} {tm : ℕ → τ}
    (htm : Increasing N tm) (hN : k ≤ N) {p : ℝ × ℝ} (hp : 0 < p.1 ∧ 0 < p.2) :
    iewmaDict label (finFrame N tm f) (xr p) = .ok (label (xr p), iewmaRows tm f N (3 * k - 2) (xr p)) := by
  unfold iewmaDict
  rw [show ({ volaHalflife := (xr p).1, covHalflife := (xr p).2, minPeriodsVola := k, minPeriodsCov := 2 * k } : IewmaArgs XR)
      = (factorArgs k p).toArgs from rfl, iterated_factor hk hp hf htm hN]
  show Except.ok _ = Except.ok _
  congr 2
  have e : ((List.range' (3 * k - 2) (N - (3 * k - 2))).map fun s => itemAt (factorArgs k p) (s + 1) tm f (s + 1 - k)).map
      (fun r => (r.time, r.covariance)) = iewmaRows tm f N (3 * k - 2) (xr p) := by
    rw [List.map_map, iewmaRows]
    apply List.map_congr_left
    intro s hs
    rw [List.mem_range'_1] at hs
    simp only [Function.comp]
    have e1 : (itemAt (factorArgs k p) (s + 1) tm f (s + 1 - k)).time = tm s := by
      show tm _ = tm s
      rw [live_factor_getD hp hf (by omega)]
      congr 1; omega
    rw [e1]
    rfl
  rw [e, dictOf_nodup]
  rw [iewmaRows, List.map_map]
  apply List.Nodup.map_on
  · intro s hs t ht e
    rw [List.mem_range'_1] at hs ht
    exact distinct_of_increasing htm s t (by omega) (by omega) e
  · exact List.nodup_range'

theorem construct_of_results (label : XR × XR → L) (solvers : Solvers k) (factors : Dict τ (Vec k)) (start : τ)
    (fast : XR × XR) (qs : List (XR × XR)) {results : List (L × Dict τ (Arr (Fin k × Fin k) XR))}
    (h : (fast :: qs).mapM (iewmaDict label (factors.map fun p => (p.1, Arr.ofFn fun i => XR.fin (p.2 i)))) = .ok results) :
    constructFactorCovariance label solvers factors (fast :: qs) start
      = factorTail solvers factors (label fast)
          (((dictOf results).map fun q => (q.1, q.2.filter fun p => start ≤ p.1)).map Prod.fst).length
          (fun i => (((dictOf results).map fun q => (q.1, q.2.filter fun p => start ≤ p.1)).map Prod.fst)[i.1])
          (fun i => (((dictOf results).map fun q => (q.1, q.2.filter fun p => start ≤ p.1))[i.1]?.map Prod.snd).getD []) := by
  unfold constructFactorCovariance
  dsimp only
  rw [h]
  rfl

theorem construct_eq_tail (hk : 0 < k) (label : XR × XR → L) (solvers : Solvers k) {f : ℕ → Vec k} (hf : Awake f) {N s0 : ℕ}
    {tm : ℕ → τ} (htm : Increasing N tm) (hs0 : 3 * k - 2 ≤ s0) (hN : s0 < N) {p0 : ℝ × ℝ} {ps : List (ℝ × ℝ)}
    (hp : PosPairs (p0 :: ps)) :
    constructFactorCovariance label solvers (rowDict N tm f) ((p0 :: ps).map xr) (tm s0)
      = factorTail solvers (rowDict N tm f) (label (xr p0)) (expertPairs label ((p0 :: ps).map xr)).length
          (fun i => (expertPairs label ((p0 :: ps).map xr))[i].1)
          (fun i => iewmaRows tm f N s0 (expertPairs label ((p0 :: ps).map xr))[i].2) := by
  have hframe : ((rowDict N tm f).map fun p : τ × Vec k => (p.1, (Arr.ofFn fun i => XR.fin (p.2 i) : Arr (Fin k) XR)))
      = finFrame N tm f := by
    unfold rowDict finFrame finRows
    rw [List.map_map]; rfl
  have hres : ((p0 :: ps).map xr).mapM (iewmaDict label (finFrame N tm f))
      = .ok (((p0 :: ps).map xr).map fun q => (label q, iewmaRows tm f N (3 * k - 2) q)) := by
    apply mapM_ok_of
    intro q hq
    obtain ⟨p, hpp, rfl⟩ := List.mem_map.mp hq
    exact iewmaDict_ok hk label hf htm (by omega) (hp p hpp)
  have hdict : dictOf (((p0 :: ps).map xr).map fun q => (label q, iewmaRows tm f N (3 * k - 2) q))
      = (expertPairs label ((p0 :: ps).map xr)).map fun q => (q.1, iewmaRows tm f N (3 * k - 2) q.2) := by
    unfold expertPairs
    rw [← dictOf_map, List.map_map (l := (p0 :: ps).map xr)]
    rfl
  rw [← hframe] at hres
  have hkept : (dictOf (((p0 :: ps).map xr).map fun q => (label q, iewmaRows tm f N (3 * k - 2) q))).map
      (fun q => (q.1, q.2.filter fun p => tm s0 ≤ p.1))
      = (expertPairs label ((p0 :: ps).map xr)).map fun q => (q.1, iewmaRows tm f N s0 q.2) := by
    rw [hdict, List.map_map]
    apply List.map_congr_left
    intro q _
    simp only [Function.comp]
    rw [show iewmaRows tm f N s0 q.2 = _ from (filter_start htm _ hs0 hN).symm]
    rfl
  refine (construct_of_results label solvers (rowDict N tm f) (tm s0) (xr p0) (ps.map xr) hres).trans ?_
  exact factorTail_list solvers _ _ _ _ (iewmaRows tm f N s0) hkept

end CovPred
