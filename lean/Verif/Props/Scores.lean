import Verif.Spec.Labels
import Verif.Props.ExpUtils
import Verif.Spec.Regularization
import Mathlib.Data.List.Sort
import Mathlib.Data.List.Dedup

/-
The evaluation helpers of `experiment_utils.py` that compare a prediction with the next return, and the realised
covariances.
-/
set_option linter.unusedSectionVars false
namespace CovPred
open Matrix

variable {τ : Type} [LinearOrder τ] {n : ℕ}

/-- The log-density of a return that may have missing entries: `nan` if one is missing. -/
noncomputable def gaussLogDensityN (mu : Vec n) (S : Mat n) (x : NRow n) : Option ℝ :=
  open Classical in if ∀ i, (x i).isSome then some (gaussLogDensity mu S fun i => (x i).getD 0) else none

private theorem lookup_zip_range {A : Type} (tm : ℕ → τ) (hinj : ∀ s t, tm s = tm t → s = t) (v : ℕ → A) (T : ℕ) {t : ℕ}
    (ht : t < T) : ((List.range T).map fun s => (tm s, v s)).lookup (tm t) = some (v t) := by
  induction T with
  | zero => omega
  | succ T ih =>
    rw [List.range_succ, List.map_append, List.lookup_append]
    rcases Nat.lt_succ_iff_lt_or_eq.1 ht with h | h
    · rw [ih h]; rfl
    · subst h
      have : ((List.range t).map fun s => (tm s, v s)).lookup (tm t) = none := by
        rw [List.lookup_eq_none_iff]
        intro p hp
        rw [List.mem_map] at hp
        obtain ⟨s, hs, rfl⟩ := hp
        have : tm t ≠ tm s := fun h => by have := hinj _ _ h; have := List.mem_range.1 hs; omega
        simpa using this
      rw [this]
      simp

theorem shiftBack_panel (tm : ℕ → τ) (r : ℕ → NRow n) (T : ℕ) :
    shiftBack ((List.range T).map fun t => (tm t, r t))
      = (List.range T).map fun t => (tm t, if t + 1 < T then r (t + 1) else fun _ => none) := by
  unfold shiftBack
  rw [List.map_map, List.map_map]
  apply List.ext_getElem
  · simp
    omega
  · intro k h1 h2
    have hk : k < T := by simpa using h2
    simp only [List.getElem_zip, List.getElem_map, List.getElem_range, Function.comp]
    congr 1
    by_cases h : k + 1 < T
    · rw [if_pos h, List.getElem_append_left (by simp; omega)]
      simp
    · rw [if_neg h, List.getElem_append_right (by simp; omega)]
      simp

private theorem lookup_shiftBack (tm : ℕ → τ) (hinj : ∀ s t, tm s = tm t → s = t) (r : ℕ → NRow n) {T t : ℕ} (ht : t < T) :
    (shiftBack ((List.range T).map fun t => (tm t, r t))).lookup (tm t)
      = some (if t + 1 < T then r (t + 1) else fun _ => none) := by
  rw [shiftBack_panel, lookup_zip_range tm hinj _ T ht]

theorem singleN_eq {S : Mat n} (hS : S.PosDef) (r : NRow n) (m : Vec n) :
    singleLogLikelihoodN r S m = .ok (gaussLogDensityN m S r) := by
  unfold singleLogLikelihoodN gaussLogDensityN
  rw [C73_single hS]
  rfl

open Classical in
private theorem append_llStep (tm : ℕ → τ) (hinj : ∀ s t, tm s = tm t → s = t) (T : ℕ) (r : ℕ → NRow (n + 1))
    (mu : Option (ℕ → Vec (n + 1))) (cov : ℕ → Mat (n + 1)) (ts : List ℕ) (hts : ∀ t ∈ ts, t < T)
    (hpd : ∀ t ∈ ts, (cov t).PosDef) :
    appendM (fun p : τ × Mat (n + 1) => llStep (shiftBack ((List.range T).map fun t => (tm t, r t)))
        (mu.map fun m => (List.range T).map fun t => (tm t, m t)) p.1 p.2) (ts.map fun t => (tm t, cov t))
      = .ok ((ts.filter fun t => decide (t + 1 < T ∧ (r (t + 1) 0).isSome)).map fun t =>
          (tm t, gaussLogDensityN ((mu.getD fun _ => 0) t) (cov t) (r (t + 1)))) := by
  unfold appendM
  induction ts with
  | nil => rfl
  | cons t ts ih =>
    have ih' := ih (fun s hs => hts s (List.mem_cons_of_mem _ hs)) fun s hs => hpd s (List.mem_cons_of_mem _ hs)
    have ht : t < T := hts t List.mem_cons_self
    have hp := hpd t List.mem_cons_self
    have hstep : llStep (shiftBack ((List.range T).map fun t => (tm t, r t)))
        (mu.map fun m => (List.range T).map fun t => (tm t, m t)) (tm t) (cov t)
        = .ok (if t + 1 < T ∧ (r (t + 1) 0).isSome then
            some (tm t, gaussLogDensityN ((mu.getD fun _ => 0) t) (cov t) (r (t + 1))) else none) := by
      unfold llStep
      rw [lookup_shiftBack tm hinj r ht]
      by_cases h1 : t + 1 < T
      · simp only [if_pos h1]
        by_cases h2 : (r (t + 1) 0).isSome
        · rw [if_neg (by simp [Option.isSome_iff_ne_none.1 h2]), if_pos ⟨h1, h2⟩]
          cases mu with
          | none =>
            simp only [Option.map_none, Option.getD_none]
            show (singleLogLikelihoodN (r (t + 1)) (cov t) 0 >>= _) = _
            rw [singleN_eq hp]; rfl
          | some m =>
            simp only [Option.map_some, Option.getD_some, lookup_zip_range tm hinj m T ht]
            show (singleLogLikelihoodN (r (t + 1)) (cov t) (m t) >>= _) = _
            rw [singleN_eq hp]; rfl
        · rw [if_pos (by simpa using h2), if_neg (fun h => h2 h.2)]
      · simp only [if_neg h1]
        rw [if_pos (by simp), if_neg (fun h => h1 h.1)]
    rw [List.map_cons, List.mapM_cons]
    simp only [hstep]
    cases hm : (ts.map fun t => (tm t, cov t)).mapM (fun p : τ × Mat (n + 1) =>
      llStep (shiftBack ((List.range T).map fun t => (tm t, r t)))
        (mu.map fun m => (List.range T).map fun t => (tm t, m t)) p.1 p.2) with
    | error e => rw [hm] at ih'; cases ih'
    | ok xs =>
      rw [hm] at ih'
      have hx : xs.filterMap id = _ := Except.ok.inj ih'
      show Except.ok (List.filterMap id (_ :: xs)) = _
      by_cases h : t + 1 < T ∧ (r (t + 1) 0).isSome
      · rw [if_pos h, List.filter_cons_of_pos (by simpa using h), List.map_cons, ← hx]; rfl
      · rw [if_neg h, List.filter_cons_of_neg (by simpa using h), ← hx]; rfl

open Classical in
/-- **C74.** `log_likelihood_low_rank` scores the prediction made at a time on the return of the *next* row of the
frame: for the prediction `F Fᵀ + diag(d)` made at row `t` it reports the normal log-density of the return of row
`t + 1`, in the order of the predictions. The last row, and rows whose successor lacks the return of the first asset,
are skipped; missing returns of other assets give `nan`. -/
theorem C74_low_rank {k : ℕ} (tm : ℕ → τ) (hinj : ∀ s t, tm s = tm t → s = t) (T : ℕ) (r : ℕ → NRow (n + 1))
    (mu : Option (ℕ → Vec (n + 1))) (F : ℕ → Matrix (Fin (n + 1)) (Fin k) ℝ) (d : ℕ → Vec (n + 1)) (ts : List ℕ)
    (hts : ∀ t ∈ ts, t < T) (hpd : ∀ t ∈ ts, (F t * (F t)ᵀ + diagonal (d t)).PosDef) :
    logLikelihoodLowRank ((List.range T).map fun t => (tm t, r t)) (ts.map fun t => (tm t, ⟨F t, d t⟩))
        (mu.map fun m => (List.range T).map fun t => (tm t, m t))
      = .ok ((ts.filter fun t => decide (t + 1 < T ∧ (r (t + 1) 0).isSome)).map fun t =>
          (tm t, gaussLogDensityN ((mu.getD fun _ => 0) t) (F t * (F t)ᵀ + diagonal (d t)) (r (t + 1)))) := by
  have := append_llStep tm hinj T r mu (fun t => F t * (F t)ᵀ + diagonal (d t)) ts hts hpd
  unfold logLikelihoodLowRank
  unfold appendM at this ⊢
  rw [← this, List.mapM_map, List.mapM_map]
  rfl

open Classical in
/-- **C74.** The same for `log_likelihood_regularized` without a rank and dense predictions. -/
theorem C74_dense (eigh : Eigh) (tm : ℕ → τ) (hinj : ∀ s t, tm s = tm t → s = t) (T : ℕ) (r : ℕ → NRow (n + 1))
    (mu : Option (ℕ → Vec (n + 1))) (cov : ℕ → Mat (n + 1)) (ts : List ℕ) (hts : ∀ t ∈ ts, t < T)
    (hpd : ∀ t ∈ ts, (cov t).PosDef) :
    logLikelihoodRegularized eigh ((List.range T).map fun t => (tm t, r t)) (ts.map fun t => (tm t, cov t))
        (mu.map fun m => (List.range T).map fun t => (tm t, m t)) none
      = .ok ((ts.filter fun t => decide (t + 1 < T ∧ (r (t + 1) 0).isSome)).map fun t =>
          (tm t, gaussLogDensityN ((mu.getD fun _ => 0) t) (cov t) (r (t + 1)))) :=
  append_llStep tm hinj T r mu cov ts hts hpd

/-- **C74.** With a rank, `log_likelihood_regularized` is the score of the regularised predictions: if
`regularize_covariance` yields `l`, the result is that for the dictionary `l`. -/
theorem C74_regularized (eigh : Eigh) (returns : List (τ × NRow (n + 1))) (sigmas : Dict τ (Mat (n + 1)))
    (means : Option (Dict τ (Vec (n + 1)))) (rank : ℕ) (l : Dict τ (Mat (n + 1)))
    (hl : regularizeCovariance eigh sigmas rank = (l.map fun p => (p.1, RegOut.dense p.2), none)) :
    logLikelihoodRegularized eigh returns sigmas means (some rank)
      = logLikelihoodRegularized eigh returns l means none := by
  unfold logLikelihoodRegularized appendM
  dsimp only
  congr 1
  unfold regularizeCovariance at hl
  induction sigmas generalizing l with
  | nil =>
    cases l with
    | nil => rfl
    | cons q l =>
      have h0 := congrArg (fun x => x.1.length) hl
      simp [genMap] at h0
  | cons p sigmas ih =>
    rw [genMap] at hl
    cases hx : regularizeOne eigh p.2 rank false with
    | error e =>
      rw [hx] at hl
      have h0 := congrArg Prod.snd hl
      cases h0
    | ok x =>
      rw [hx] at hl
      have hl' : ((p.1, x) :: (genMap (fun p : τ × Mat (n + 1) => do
          let x ← regularizeOne eigh p.2 rank false
          pure (p.1, x)) sigmas).1, (genMap (fun p : τ × Mat (n + 1) => do
          let x ← regularizeOne eigh p.2 rank false
          pure (p.1, x)) sigmas).2) = (l.map fun p => (p.1, RegOut.dense p.2), (none : Option Err)) := hl
      cases l with
      | nil => cases hl'
      | cons q l =>
        rw [Prod.mk.injEq, List.map_cons, List.cons.injEq, Prod.mk.injEq] at hl'
        obtain ⟨⟨⟨h1, h2⟩, h3⟩, h4⟩ := hl'
        have ih' := ih l (by rw [Prod.ext_iff]; exact ⟨h3, h4⟩)
        rw [List.mapM_cons, List.mapM_cons, ih', hx, ← h1, h2]
        rfl

/-- Three rows, two predictions: only the first one is scored, on the second row. -/
example : logLikelihoodLowRank ((List.range 3).map fun t : ℕ => (t, fun _ : Fin 1 => some (t : ℝ)))
    ([1, 2].map fun t : ℕ => (t, (⟨0, fun _ => 2⟩ : LowRankDiag 1 1))) none
      = .ok [(1, some (gaussLogDensity (fun _ => 0) (((0 : Matrix (Fin 1) (Fin 1) ℝ)) * 0ᵀ + diagonal fun _ => 2) fun _ => ((2 : ℕ) : ℝ)))] := by
  have := C74_low_rank (τ := ℕ) (n := 0) (k := 1) (fun t => t) (fun _ _ h => h) 3 (fun t _ => some (t : ℝ)) none
    (fun _ => 0) (fun _ _ => 2) [1, 2] (by decide) (by
      intro t _
      show ((0 : Matrix (Fin 1) (Fin 1) ℝ) * 0ᵀ + diagonal (fun _ => (2 : ℝ))).PosDef
      rw [Matrix.zero_mul, zero_add]
      exact Matrix.PosDef.diagonal (d := fun _ => (2 : ℝ)) fun _ => by norm_num)
  refine this.trans ?_
  simp [gaussLogDensityN]
  norm_num
  rfl

/-! ### Realised covariances -/

private theorem mapM_mem {A B : Type} {f : A → Except Err B} {l : List A} {res : List B} (h : l.mapM f = .ok res) :
    List.Forall₂ (fun a b => f a = .ok b) l res := by
  induction l generalizing res with
  | nil => cases h; exact List.Forall₂.nil
  | cons a l ih =>
    rw [List.mapM_cons] at h
    cases ha : f a with
    | error e => rw [ha] at h; cases h
    | ok b =>
      rw [ha] at h
      cases hl : l.mapM f with
      | error e => rw [hl] at h; cases h
      | ok bs =>
        rw [hl] at h
        cases h
        exact List.Forall₂.cons ha (ih hl)

theorem mem_uniqueLabels {A : Type} (rows : List (τ × A)) (t : τ) : t ∈ uniqueLabels rows ↔ t ∈ rows.map Prod.fst := by
  simp [uniqueLabels]

theorem FirstSeen.nodup {A : Type} {rows : List (τ × A)} {l : List τ} (h : FirstSeen rows l) : l.Nodup :=
  h.order.imp fun hab e => by rw [e] at hab; exact absurd hab (lt_irrefl _)

theorem FirstSeen.unique {A : Type} {rows : List (τ × A)} {l l' : List τ} (h : FirstSeen rows l) (h' : FirstSeen rows l') :
    l = l' := by
  refine List.Perm.eq_of_pairwise (le := fun a b => (rows.map Prod.fst).idxOf a < (rows.map Prod.fst).idxOf b)
    (fun a b _ _ h1 h2 => absurd h1 (lt_asymm h2)) h.order h'.order ?_
  rw [List.perm_ext_iff_of_nodup h.nodup h'.nodup]
  exact fun t => by rw [h.mem, h'.mem]

theorem uniqueLabels_firstSeen {A : Type} (rows : List (τ × A)) : FirstSeen rows (uniqueLabels rows) := by
  refine ⟨mem_uniqueLabels rows, ?_⟩
  have key : ∀ L : List τ, (L.reverse.dedup.reverse).Pairwise fun a b => L.idxOf a < L.idxOf b := by
    intro L
    induction L using List.reverseRecOn with
    | nil => simp
    | append_singleton L a ih =>
      have hin : (L.reverse.dedup.reverse).Pairwise fun b c => (L ++ [a]).idxOf b < (L ++ [a]).idxOf c := by
        refine ih.imp_of_mem fun {b c} hb hc hbc => ?_
        have hb' : b ∈ L := by simpa using hb
        have hc' : c ∈ L := by simpa using hc
        rwa [List.idxOf_append_of_mem hb', List.idxOf_append_of_mem hc']
      rw [List.reverse_append, List.reverse_singleton, List.singleton_append]
      by_cases ha : a ∈ L
      · rw [List.dedup_cons_of_mem (by simpa using ha)]
        exact hin
      · rw [List.dedup_cons_of_notMem (by simpa using ha), List.reverse_cons, List.pairwise_append]
        refine ⟨hin, by simp, fun b hb c hc => ?_⟩
        have hb' : b ∈ L := by simpa using hb
        have hc' : c = a := by simpa using hc
        subst hc'
        rw [List.idxOf_append_of_mem hb', List.idxOf_append_of_notMem ha]
        have := List.idxOf_lt_length_of_mem hb'
        omega
  exact key _

private theorem sum_dyad_sub (rs : List (Vec n)) (m : Vec n) (i j : Fin n) :
    (rs.map fun r => outerR (r - m)).sum i j
      = (rs.map fun r => r i * r j).sum - m i * rs.sum j - rs.sum i * m j + rs.length * (m i * m j) := by
  induction rs with
  | nil => simp
  | cons r rs ih =>
    rw [List.map_cons, List.sum_cons, List.map_cons, List.sum_cons, List.sum_cons, Matrix.add_apply, ih]
    simp only [outerR, Matrix.of_apply, Pi.sub_apply, Pi.add_apply, List.length_cons]
    push_cast
    ring

/-- The realised covariance of a day: the sum of squares and products minus that of the mean. -/
noncomputable def realizedSpec (rs : List (Vec n)) : Mat n :=
  Matrix.of fun i j => (rs.map fun r => r i * r j).sum - rs.sum i * rs.sum j / rs.length

theorem realized_labels {rows : List (τ × Vec n)} {res : List (τ × Mat n)} (h : realizedCovariance rows = .ok res) :
    List.Forall₂ (fun t q => q = (t, realizedSpec ((rows.filter fun p => p.1 = t).map Prod.snd)))
      (uniqueLabels rows) res := by
  have hmem : ∀ t ∈ uniqueLabels rows, rowsAt rows t ≠ [] := by
    intro t ht h0
    rw [mem_uniqueLabels, List.mem_map] at ht
    obtain ⟨p, hp, rfl⟩ := ht
    have : p.2 ∈ rowsAt rows p.1 := by
      unfold rowsAt
      rw [List.mem_map]
      exact ⟨p, by simpa using hp, rfl⟩
    rw [h0] at this
    cases this
  have hall := mapM_mem h
  have : ∀ (l : List τ) (res : List (τ × Mat n)), (∀ t ∈ l, rowsAt rows t ≠ []) →
      List.Forall₂ (fun t q => (let rs := rowsAt rows t
        let T := rs.length
        if T = 1 then Except.error Err.typeError
        else
          let mean : Vec n := (1 / (T : ℝ)) • rs.sum
          Except.ok (t, (T : ℝ) • ((1 / (T : ℝ)) • (rs.map fun r => outerR (r - mean)).sum))) = Except.ok q) l res →
      List.Forall₂ (fun t q => q = (t, realizedSpec ((rows.filter fun p => p.1 = t).map Prod.snd))) l res := by
    intro l res hne hf
    induction hf with
    | nil => exact List.Forall₂.nil
    | @cons t q l res hd _ ih =>
      refine List.Forall₂.cons ?_ (ih fun s hs => hne s (List.mem_cons_of_mem _ hs))
      dsimp only at hd
      split at hd
      · cases hd
      · rw [← Except.ok.inj hd]
        congr 1
        ext i j
        have hT : ((rowsAt rows t).length : ℝ) ≠ 0 := by
          have := hne t List.mem_cons_self
          exact_mod_cast fun h0 => this (List.length_eq_zero_iff.1 h0)
        rw [smul_smul, mul_one_div_cancel hT, one_smul, sum_dyad_sub]
        simp only [realizedSpec, Matrix.of_apply, Pi.smul_apply, smul_eq_mul]
        show _ = ((rowsAt rows t).map fun r => r i * r j).sum - (rowsAt rows t).sum i * (rowsAt rows t).sum j / (rowsAt rows t).length
        field_simp
        ring
  exact this _ _ hmem hall

/-- **C75.** `_realized_covariance` gives all labels, once, in the order of their first rows, each with the sum of the products
of the returns of that label minus the products of their sums divided by their number. -/
theorem C75_realized {rows : List (τ × Vec n)} {res : List (τ × Mat n)} (h : realizedCovariance rows = .ok res) :
    FirstSeen rows (res.map Prod.fst) ∧
      ∀ q ∈ res, q.2 = realizedSpec ((rows.filter fun p => p.1 = q.1).map Prod.snd) := by
  have h1 := realized_labels h
  have h2 : ∀ (l : List τ) (res : List (τ × Mat n)),
      List.Forall₂ (fun t q => q = (t, realizedSpec ((rows.filter fun p => p.1 = t).map Prod.snd))) l res →
      res.map Prod.fst = l ∧ ∀ q ∈ res, q.2 = realizedSpec ((rows.filter fun p => p.1 = q.1).map Prod.snd) := by
    intro l res hf
    induction hf with
    | nil => simp
    | @cons t q l res hd _ ih =>
      subst hd
      refine ⟨by rw [List.map_cons, ih.1], fun q hq => ?_⟩
      rcases List.mem_cons.mp hq with rfl | hq
      · rfl
      · exact ih.2 q hq
  obtain ⟨h3, h4⟩ := h2 _ _ h1
  exact ⟨by rw [h3]; exact uniqueLabels_firstSeen rows, h4⟩

/-- **C75.** `realized_volas` gives all labels, once, in the order of their first rows, each with the roots of the sums of the
squared returns of that label. -/
theorem C75_volas {rows : List (τ × Vec n)} {vol : List (τ × Vec n)} (h : realizedVolas rows = .ok vol) :
    FirstSeen rows (vol.map Prod.fst) ∧
      ∀ v ∈ vol, ∀ i, v.2 i = Real.sqrt (((rows.filter fun p => p.1 = v.1).map fun p => p.2 i ^ 2).sum) := by
  have h1 := mapM_mem h
  have h2 : ∀ (l : List τ) (vol : List (τ × Vec n)),
      List.Forall₂ (fun t v => (let rs := rowsAt rows t
        if rs.length = 1 then Except.error Err.other
        else Except.ok (t, fun i => Real.sqrt (rs.map fun r => r i ^ 2).sum)) = Except.ok v) l vol →
      vol.map Prod.fst = l ∧
        ∀ v ∈ vol, ∀ i, v.2 i = Real.sqrt (((rows.filter fun p => p.1 = v.1).map fun p => p.2 i ^ 2).sum) := by
    intro l vol hf
    induction hf with
    | nil => simp
    | @cons t v l vol hd _ ih =>
      dsimp only at hd
      split at hd
      · cases hd
      · have hv := Except.ok.inj hd
        subst hv
        refine ⟨by rw [List.map_cons, ih.1], fun q hq i => ?_⟩
        rcases List.mem_cons.mp hq with rfl | hq
        · show Real.sqrt ((rowsAt rows t).map fun r => r i ^ 2).sum = _
          unfold rowsAt
          rw [List.map_map]
          rfl
        · exact ih.2 q hq i
  obtain ⟨h3, h4⟩ := h2 _ _ h1
  exact ⟨by rw [h3]; exact uniqueLabels_firstSeen rows, h4⟩

/-- **C75.** A label with a single row makes the whole call fail, and nothing else does. -/
theorem C75_single_row (rows : List (τ × Vec n)) :
    ((∃ t, (rows.filter fun p => p.1 = t).length = 1) → realizedCovariance rows = .error .typeError) ∧
      ((∀ t, (rows.filter fun p => p.1 = t).length ≠ 1) → ∃ res, realizedCovariance rows = .ok res) := by
  have hl : ∀ t, (rows.filter fun p => p.1 = t).length = (rowsAt rows t).length := fun t => by rw [rowsAt, List.length_map]
  simp only [hl]
  have key : ∀ l : List τ, ((∃ t ∈ l, (rowsAt rows t).length = 1) →
      (l.mapM fun t => (let rs := rowsAt rows t
        let T := rs.length
        if T = 1 then Except.error Err.typeError
        else
          let mean : Vec n := (1 / (T : ℝ)) • rs.sum
          Except.ok (t, (T : ℝ) • ((1 / (T : ℝ)) • (rs.map fun r => outerR (r - mean)).sum)))) = .error .typeError) ∧
      ((∀ t ∈ l, (rowsAt rows t).length ≠ 1) → ∃ res, (l.mapM fun t => (let rs := rowsAt rows t
        let T := rs.length
        if T = 1 then Except.error Err.typeError
        else
          let mean : Vec n := (1 / (T : ℝ)) • rs.sum
          Except.ok (t, (T : ℝ) • ((1 / (T : ℝ)) • (rs.map fun r => outerR (r - mean)).sum)))) = .ok res) := by
    intro l
    induction l with
    | nil => exact ⟨by simp, fun _ => ⟨[], rfl⟩⟩
    | cons a l ih =>
      simp only [List.mapM_cons]
      by_cases ha : (rowsAt rows a).length = 1
      · constructor
        · intro _
          rw [if_pos ha]; rfl
        · intro h
          exact absurd ha (h a List.mem_cons_self)
      · rw [if_neg ha]
        constructor
        · rintro ⟨t, ht, h1⟩
          rcases List.mem_cons.1 ht with rfl | ht
          · exact absurd h1 ha
          · rw [ih.1 ⟨t, ht, h1⟩]; rfl
        · intro h
          obtain ⟨res, hres⟩ := ih.2 fun t ht => h t (List.mem_cons_of_mem _ ht)
          rw [hres]
          exact ⟨_, rfl⟩
  constructor
  · rintro ⟨t, ht⟩
    apply (key _).1
    refine ⟨t, ?_, ht⟩
    rw [mem_uniqueLabels, List.mem_map]
    have : rowsAt rows t ≠ [] := fun h => by rw [h] at ht; cases ht
    obtain ⟨x, hx⟩ := List.exists_mem_of_ne_nil _ this
    unfold rowsAt at hx
    rw [List.mem_map] at hx
    obtain ⟨p, hp, _⟩ := hx
    rw [List.mem_filter] at hp
    exact ⟨p, hp.1, by simpa using hp.2⟩
  · intro h
    exact (key _).2 fun t _ => h t

theorem realizedSpec_quad (rs : List (Vec n)) (hrs : rs ≠ []) (x : Vec n) :
    x ⬝ᵥ (realizedSpec rs *ᵥ x) = (rs.map fun r => (x ⬝ᵥ (r - (1 / (rs.length : ℝ)) • rs.sum)) ^ 2).sum := by
  have hT : (rs.length : ℝ) ≠ 0 := by exact_mod_cast fun h0 => hrs (List.length_eq_zero_iff.1 h0)
  have hS : realizedSpec rs = (rs.map fun r => outerR (r - (1 / (rs.length : ℝ)) • rs.sum)).sum := by
    ext i j
    rw [sum_dyad_sub]
    simp only [realizedSpec, Matrix.of_apply, Pi.smul_apply, smul_eq_mul]
    field_simp
    ring
  rw [hS]
  generalize (1 / (rs.length : ℝ)) • rs.sum = m
  clear hS hT hrs
  induction rs with
  | nil => simp
  | cons r rs ih =>
    rw [List.map_cons, List.sum_cons, List.map_cons, List.sum_cons, Matrix.add_mulVec, dotProduct_add, ih]
    congr 1
    have : outerR (r - m) *ᵥ x = (x ⬝ᵥ (r - m)) • (r - m) := by
      ext i
      simp only [Matrix.mulVec, outerR, dotProduct, Matrix.of_apply, Pi.smul_apply, smul_eq_mul, Finset.sum_mul]
      exact Finset.sum_congr rfl fun j _ => by ring
    rw [this, dotProduct_smul, smul_eq_mul, sq]

/-- **C75.** A realised covariance is positive semidefinite, and its variances are at most the squares of the realised
volatilities (`realized_volas` does not subtract the mean), with equality exactly for the assets whose returns sum to
zero. -/
theorem C75_psd_and_volas {rows : List (τ × Vec n)} {res : List (τ × Mat n)} {vol : List (τ × Vec n)}
    (h : realizedCovariance rows = .ok res) (hv : realizedVolas rows = .ok vol) :
    List.Forall₂ (fun q v => q.1 = v.1 ∧ q.2.PosSemidef ∧ ∀ i, q.2 i i ≤ v.2 i ^ 2 ∧
      (q.2 i i = v.2 i ^ 2 ↔ ((rows.filter fun p => p.1 = q.1).map Prod.snd).sum i = 0)) res vol := by
  have h1 := realized_labels h
  have h2 := mapM_mem hv
  have hmem : ∀ t ∈ uniqueLabels rows, rowsAt rows t ≠ [] := by
    intro t ht h0
    rw [mem_uniqueLabels, List.mem_map] at ht
    obtain ⟨p, hp, rfl⟩ := ht
    have : p.2 ∈ rowsAt rows p.1 := by
      unfold rowsAt
      rw [List.mem_map]
      exact ⟨p, by simpa using hp, rfl⟩
    rw [h0] at this
    cases this
  clear h hv
  generalize uniqueLabels rows = l at h1 h2 hmem
  induction l generalizing res vol with
  | nil =>
    cases h1; cases h2; exact List.Forall₂.nil
  | cons t l ih =>
    cases h1 with
    | cons a1 b1 =>
      cases h2 with
      | cons a2 b2 =>
        refine List.Forall₂.cons ?_ ?_
        · subst a1
          dsimp only at a2
          split at a2
          · cases a2
          · cases a2
            show t = t ∧ (realizedSpec (rowsAt rows t)).PosSemidef ∧ ∀ i, realizedSpec (rowsAt rows t) i i ≤
                Real.sqrt ((rowsAt rows t).map fun r => r i ^ 2).sum ^ 2 ∧
                (realizedSpec (rowsAt rows t) i i = Real.sqrt ((rowsAt rows t).map fun r => r i ^ 2).sum ^ 2 ↔
                  (rowsAt rows t).sum i = 0)
            have hne := hmem t List.mem_cons_self
            have hT : (0 : ℝ) < (rowsAt rows t).length := by
              exact_mod_cast List.length_pos_of_ne_nil hne
            refine ⟨rfl, ?_, ?_⟩
            · apply Matrix.PosSemidef.of_dotProduct_mulVec_nonneg
              · ext i j
                simp only [realizedSpec, Matrix.conjTranspose_apply, Matrix.of_apply, star_trivial]
                congr 1
                · simp only [mul_comm]
                · rw [mul_comm]
              · intro x
                rw [star_trivial, realizedSpec_quad _ hne]
                apply List.sum_nonneg
                intro y hy
                rw [List.mem_map] at hy
                obtain ⟨r, _, rfl⟩ := hy
                exact sq_nonneg _
            · intro i
              have hs : 0 ≤ ((rowsAt rows t).map fun r => r i ^ 2).sum := by
                apply List.sum_nonneg
                intro y hy
                rw [List.mem_map] at hy
                obtain ⟨r, _, rfl⟩ := hy
                exact sq_nonneg _
              rw [Real.sq_sqrt hs]
              have e : realizedSpec (rowsAt rows t) i i
                  = ((rowsAt rows t).map fun r => r i ^ 2).sum - (rowsAt rows t).sum i ^ 2 / (rowsAt rows t).length := by
                simp only [realizedSpec, Matrix.of_apply, sq]
              rw [e]
              constructor
              · have : 0 ≤ (rowsAt rows t).sum i ^ 2 / (rowsAt rows t).length := by positivity
                linarith
              · rw [sub_eq_self, div_eq_zero_iff]
                simp [hT.ne']
        · exact ih b1 b2 fun s hs => hmem s (List.mem_cons_of_mem _ hs)

/-- Two labels with two rows each. -/
example : ∃ res, realizedCovariance [(0, (![1] : Vec 1)), (0, ![3]), (1, ![2]), (1, ![-2])] = .ok res ∧
    FirstSeen [(0, (![1] : Vec 1)), (0, ![3]), (1, ![2]), (1, ![-2])] [0, 1] := by
  obtain ⟨res, h⟩ := (C75_single_row [(0, (![1] : Vec 1)), (0, ![3]), (1, ![2]), (1, ![-2])]).2 (by
    intro t
    by_cases h0 : t = 0
    · subst h0; simp [rowsAt]
    · by_cases h1 : t = 1
      · subst h1; simp [rowsAt]
      · simp [rowsAt, Ne.symm h0, Ne.symm h1])
  refine ⟨res, h, ?_⟩
  have := uniqueLabels_firstSeen [((0 : ℕ), (![1] : Vec 1)), (0, ![3]), (1, ![2]), (1, ![-2])]
  simpa [uniqueLabels] using this

/-! ### MSE and ecdf -/

open Classical in
/-- **C76.** `MSE` compares the covariance predicted at row `t` with the outer product of the return of row `t + 1`:
the squared Frobenius distance, and `nan` for the last row and where that return has missing entries. -/
theorem C76_mse (tm : ℕ → τ) (hinj : ∀ s t, tm s = tm t → s = t) (T : ℕ) (r : ℕ → NRow n) (cov : ℕ → Mat n)
    (ts : List ℕ) (hts : ∀ t ∈ ts, t < T) (hn : 0 < n) :
    mse ((List.range T).map fun t => (tm t, r t)) (ts.map fun t => (tm t, cov t))
      = .ok (ts.map fun t => (tm t,
          if t + 1 < T ∧ ∀ i, (r (t + 1) i).isSome then some (frob (cov t - dyad fun i => (r (t + 1) i).getD 0))
          else none)) := by
  unfold mse
  rw [mapM_except_ok (g := fun p : τ × Mat n => (p.1,
    match (shiftBack ((List.range T).map fun t => (tm t, r t))).lookup p.1 with
    | none => none
    | some x => if ∀ i, (x i).isSome then some (frob (p.2 - dyad fun i => (x i).getD 0)) else none))]
  · rw [List.map_map]
    congr 1
    apply List.map_congr_left
    intro t ht
    simp only [Function.comp, lookup_shiftBack tm hinj r (hts t ht)]
    congr 1
    by_cases h1 : t + 1 < T
    · simp only [h1, true_and, if_true]
    · have h2 : ¬ ∀ i : Fin n, ((fun _ => none : NRow n) i).isSome := by
        intro h; have := h ⟨0, hn⟩; simp at this
      simp only [h1, false_and, if_false]
      rw [if_neg h2]
  · intro p hp
    rw [List.mem_map] at hp
    obtain ⟨t, ht, rfl⟩ := hp
    have hfrob : ∀ x : Vec n, Real.sqrt (∑ i, ∑ j, (cov t i j - outerR x i j) ^ 2) ^ 2 = frob (cov t - dyad x) := by
      intro x
      rw [Real.sq_sqrt (Finset.sum_nonneg fun i _ => Finset.sum_nonneg fun j _ => sq_nonneg _)]
      rfl
    simp only [lookup_shiftBack tm hinj r (hts t ht), ← hfrob]

/-- **C76.** `ecdf` sorts the data and pairs the `k`-th smallest value with `k / n`: at least `k` of the `n` data are
at most that value. -/
theorem C76_ecdf (data : List ℝ) :
    (ecdf data).1.Perm data ∧ (ecdf data).1.Pairwise (· ≤ ·) ∧ (ecdf data).2.length = data.length ∧
      ∀ (k : ℕ) (h1 : k < (ecdf data).1.length) (h2 : k < (ecdf data).2.length),
        (ecdf data).2[k] = (k + 1) / data.length ∧
        k + 1 ≤ data.countP (fun x => decide (x ≤ (ecdf data).1[k])) := by
  have hperm : (ecdf data).1.Perm data := List.mergeSort_perm data _
  have hsorted : (ecdf data).1.Pairwise (· ≤ ·) := by
    have := List.pairwise_mergeSort (le := fun a b : ℝ => decide (a ≤ b))
      (fun a b c h1 h2 => by simp only [decide_eq_true_eq] at *; exact le_trans h1 h2)
      (fun a b => by simp only [Bool.or_eq_true, decide_eq_true_eq]; exact le_total a b) data
    unfold ecdf
    exact this.imp fun h => by simpa using h
  refine ⟨hperm, hsorted, by simp [ecdf], ?_⟩
  intro k h1 h2
  constructor
  · simp [ecdf]
  · rw [← hperm.countP_eq]
    have htake : ((ecdf data).1.take (k + 1)).countP (fun x => decide (x ≤ (ecdf data).1[k])) = k + 1 := by
      rw [List.countP_eq_length.2]
      · rw [List.length_take]; omega
      · intro x hx
        obtain ⟨j, hj, rfl⟩ := List.mem_iff_getElem.1 hx
        rw [List.length_take] at hj
        rw [List.getElem_take]
        simp only [decide_eq_true_eq]
        rcases Nat.lt_or_ge j k with hlt | hge
        · exact List.pairwise_iff_getElem.1 hsorted j k (by omega) h1 hlt
        · have : j = k := by omega
          subst this; exact le_rfl
    calc k + 1 = _ := htake.symm
      _ ≤ _ := (List.take_sublist _ _).countP_le

/-- Three rows, two predictions: the second one has no successor. -/
example : ∃ x : ℝ, mse ((List.range 3).map fun t : ℕ => (t, fun _ : Fin 1 => some (t : ℝ))) ([1, 2].map fun t : ℕ => (t, (1 : Mat 1)))
    = .ok [(1, some x), (2, none)] := by
  refine ⟨frob ((1 : Mat 1) - dyad fun _ => ((2 : ℕ) : ℝ)), ?_⟩
  have := C76_mse (τ := ℕ) (n := 1) (fun t => t) (fun _ _ h => h) 3 (fun t _ => some (t : ℝ)) (fun _ => 1) [1, 2]
    (by decide) (by norm_num)
  refine this.trans ?_
  norm_num

end CovPred
