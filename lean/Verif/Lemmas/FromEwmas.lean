import Verif.Model.FromEwmas
import Verif.Lemmas.FromSigmas
import Verif.Props.Iewma

/-
Lemmas about the model of `from_ewmas`.
-/
namespace CovPred
set_option linter.unusedSectionVars false

variable {L : Type} [DecidableEq L] {A B : Type}

/-! ### dictionaries -/

theorem dictOf_concat (l : List (L × A)) (p : L × A) :
    dictOf (l ++ [p]) = if p.1 ∈ (dictOf l).map Prod.fst then (dictOf l).map (fun q => if q.1 = p.1 then p else q)
      else dictOf l ++ [p] := by
  unfold dictOf
  rw [List.foldl_append]
  rfl

theorem map_fst_replace (d : List (L × A)) (p : L × A) :
    (d.map fun q => if q.1 = p.1 then p else q).map Prod.fst = d.map Prod.fst := by
  rw [List.map_map]
  apply List.map_congr_left
  intro q _
  simp only [Function.comp]
  split
  · next h => exact h.symm
  · rfl

/-- the keys are those given, each once, in the order of first insertion -/
theorem dictOf_keys (l : List (L × A)) : ((dictOf l).map Prod.fst).Nodup ∧
    (∀ k, k ∈ (dictOf l).map Prod.fst ↔ k ∈ l.map Prod.fst) ∧ ((dictOf l).map Prod.fst).Sublist (l.map Prod.fst) := by
  induction l using List.reverseRecOn with
  | nil => simp [dictOf]
  | append_singleton l p ih =>
    obtain ⟨h1, h2, h3⟩ := ih
    rw [dictOf_concat]
    split
    · next h =>
      rw [map_fst_replace]
      refine ⟨h1, fun k => ?_, ?_⟩
      · rw [h2]
        simp only [List.map_append, List.mem_append, List.map_cons, List.map_nil, List.mem_singleton]
        constructor
        · exact Or.inl
        · rintro (h' | rfl)
          · exact h'
          · exact (h2 _).mp h
      · rw [List.map_append]; exact h3.trans (List.sublist_append_left _ _)
    · next h =>
      rw [List.map_append, List.map_append]
      refine ⟨?_, fun k => ?_, h3.append (List.Sublist.refl _)⟩
      · rw [List.nodup_append]
        refine ⟨h1, by simp, ?_⟩
        rintro a ha b hb rfl
        simp only [List.map_cons, List.map_nil, List.mem_singleton] at hb
        subst hb; exact h ha
      · rw [List.mem_append, List.mem_append, h2]

/-- the value of a key is the last one given for it -/
theorem dictOf_last (l : List (L × A)) (k : L) (a : A) (h : (k, a) ∈ dictOf l) :
    ∃ pre post, l = pre ++ (k, a) :: post ∧ ∀ q ∈ post, q.1 ≠ k := by
  induction l using List.reverseRecOn with
  | nil => simp [dictOf] at h
  | append_singleton l p ih =>
    have keep : (k, a) ∈ dictOf l → p.1 ≠ k → ∃ pre post, l ++ [p] = pre ++ (k, a) :: post ∧ ∀ q ∈ post, q.1 ≠ k := by
      intro hm hne
      obtain ⟨pre, post, rfl, hp⟩ := ih hm
      refine ⟨pre, post ++ [p], by simp, ?_⟩
      intro q hq
      rcases List.mem_append.mp hq with hq | hq
      · exact hp q hq
      · rw [List.mem_singleton] at hq; subst hq; exact hne
    rw [dictOf_concat] at h
    split at h
    · obtain ⟨q, hq, e⟩ := List.mem_map.mp h
      split at e
      · exact ⟨l, [], by rw [e], by simp⟩
      · next hne => subst e; exact keep hq (Ne.symm hne)
    · next hn =>
      rcases List.mem_append.mp h with h | h
      · apply keep h
        rintro rfl
        exact hn (List.mem_map.mpr ⟨_, h, rfl⟩)
      · rw [List.mem_singleton] at h
        exact ⟨l, [], by rw [h], by simp⟩

theorem dictOf_nodup (l : List (L × A)) (h : (l.map Prod.fst).Nodup) : dictOf l = l := by
  induction l using List.reverseRecOn with
  | nil => rfl
  | append_singleton l p ih =>
    rw [List.map_append, List.nodup_append] at h
    rw [dictOf_concat, ih h.1, if_neg]
    intro hm
    exact h.2.2 _ hm _ (by simp) rfl

theorem dictOf_map (g : A → B) (l : List (L × A)) :
    dictOf (l.map fun p => (p.1, g p.2)) = (dictOf l).map fun p => (p.1, g p.2) := by
  induction l using List.reverseRecOn with
  | nil => rfl
  | append_singleton l p ih =>
    rw [List.map_append, List.map_cons, List.map_nil, dictOf_concat, dictOf_concat, ih]
    have e : ((dictOf l).map fun p => (p.1, g p.2)).map Prod.fst = (dictOf l).map Prod.fst := by
      rw [List.map_map]; rfl
    rw [e]
    split
    · rw [List.map_map, List.map_map]
      apply List.map_congr_left
      intro q _
      simp only [Function.comp]
      split <;> rfl
    · rw [List.map_append]; rfl

/-! ### inversion of the model -/

variable {τ : Type} [LinearOrder τ] {n : ℕ}

/-- the arguments `from_ewmas` passes to `iterated_ewma` for one pair -/
def pairArgs (minPeriodsVola minPeriodsCov : Int) (clipAt : Option XR) (mean : Bool) (pair : XR × XR) : IewmaArgs XR :=
  { volaHalflife := pair.1, covHalflife := pair.2, minPeriodsVola := minPeriodsVola,
    minPeriodsCov := minPeriodsCov, clipAt := clipAt, mean := mean }

/-- the experts: one pair per label -/
def expertPairs (label : XR × XR → L) (pairs : List (XR × XR)) : List (L × (XR × XR)) :=
  dictOf (pairs.map fun p => (label p, p))

/-- the finite covariances of a list of results -/
noncomputable def covDict (rs : List (IEWMA τ (Fin n) XR)) : Dict τ (Mat n) :=
  rs.map fun r => (r.time, Matrix.of fun i j => (r.covariance (i, j)).toReal)

/-- the means of a list of results -/
noncomputable def meanDict (rs : List (IEWMA τ (Fin n) XR)) : Dict τ (Vec n) :=
  rs.map fun r => (r.time, fun i => (r.mean i).toReal)

/-- the frame of returns with missing entries as 0 -/
noncomputable def realReturns (f : Frame τ (Fin n) XR) : Dict τ (Vec n) := f.map fun p => (p.1, fun i => (p.2 i).toReal)

theorem sigmas_mapM_ok {rs : List (IEWMA τ (Fin n) XR)} (h : ∀ r ∈ rs, allFinite r.covariance.get) :
    (rs.map fun r => (r.time, r)).mapM (fun q => do
      let S ← finiteCov q.2.covariance
      pure (q.1, S)) = .ok (covDict rs) := by
  unfold covDict
  induction rs with
  | nil => rfl
  | cons r rs ih =>
    rw [List.map_cons, List.mapM_cons, ih fun r hr => h r (List.mem_cons_of_mem _ hr)]
    have : finiteCov r.covariance = .ok (Matrix.of fun i j => (r.covariance (i, j)).toReal) := by
      unfold finiteCov; rw [if_pos (h r List.mem_cons_self)]
    rw [this]; rfl

theorem sigmas_mapM_error {rs : List (IEWMA τ (Fin n) XR)} (h : ¬ ∀ r ∈ rs, allFinite r.covariance.get) :
    (rs.map fun r => (r.time, r)).mapM (fun q => do
      let S ← finiteCov q.2.covariance
      pure (q.1, S)) = .error .linAlgError := by
  induction rs with
  | nil => exact absurd (by simp) h
  | cons r rs ih =>
    rw [List.map_cons, List.mapM_cons]
    by_cases hr : allFinite r.covariance.get
    · rw [ih fun hh => h fun r' hr' => (List.mem_cons.mp hr').elim (fun e => e ▸ hr) (hh r')]
      have : finiteCov r.covariance = .ok (Matrix.of fun i j => (r.covariance (i, j)).toReal) := by
        unfold finiteCov; rw [if_pos hr]
      rw [this]; rfl
    · have : finiteCov r.covariance = .error .linAlgError := by unfold finiteCov; rw [if_neg hr]
      rw [this]; rfl

/-- the function `iterated_ewma` result dictionary of one pair -/
noncomputable def pairResult (label : XR × XR → L) (f : Frame τ (Fin n) XR) (mv mc : Int) (clipAt : Option XR)
    (mean : Bool) (pair : XR × XR) : Except Err (L × Dict τ (IEWMA τ (Fin n) XR)) := do
  let rs ← iteratedEwma f (pairArgs mv mc clipAt mean pair)
  pure (label pair, dictOf (rs.map fun r => (r.time, r)))

open Classical in
/-- what `from_ewmas` does with the dictionary of results -/
noncomputable def ewmaTail (f : Frame τ (Fin n) XR) (results : List (L × Dict τ (IEWMA τ (Fin n) XR))) :
    Except Err (EwmaComb L τ n) := do
  let labels := results.map Prod.fst
  let dict (k : Fin labels.length) : Dict τ (IEWMA τ (Fin n) XR) := (results[k.1]?.map Prod.snd).getD []
  let sigmas ← finM fun k => (dict k).mapM fun q => do
    let S ← finiteCov q.2.covariance
    pure (q.1, S)
  let means := fun k => (dict k).map fun q => (q.1, fun i => (q.2.mean i).toReal)
  let comb ← fromSigmas sigmas (realReturns f) (some fun k => some (means k))
  pure { labels := labels, comb := comb, missing := (f.filter fun p => ∃ i, p.2 i = XR.nan).map Prod.fst }

/-- all entries of the frame are finite or `nan` -/
def NoInf (f : Frame τ (Fin n) XR) : Prop := ∀ p ∈ f, ∀ i, (∃ r, p.2 i = XR.fin r) ∨ p.2 i = XR.nan

theorem fromEwmas_tail (label : XR × XR → L) (f : Frame τ (Fin n) XR) (hf : NoInf f) (pairs : List (XR × XR))
    (mv mc : Int) (clipAt : Option XR) (mean : Bool) :
    fromEwmas label f pairs mv mc clipAt mean
      = (pairs.mapM (pairResult label f mv mc clipAt mean)).bind fun results => ewmaTail f (dictOf results) := by
  unfold fromEwmas
  unfold NoInf at hf
  rw [if_pos hf]
  rfl

/-- the dictionary of results when every expert succeeds -/
theorem pairResults_ok (label : XR × XR → L) (f : Frame τ (Fin n) XR) (pairs : List (XR × XR))
    (mv mc : Int) (clipAt : Option XR) (mean : Bool) (rs : XR × XR → List (IEWMA τ (Fin n) XR))
    (h : ∀ p ∈ pairs, iteratedEwma f (pairArgs mv mc clipAt mean p) = .ok (rs p))
    (hd : ∀ p ∈ pairs, ((rs p).map IEWMA.time).Nodup) :
    (pairs.mapM (pairResult label f mv mc clipAt mean)).map dictOf
      = .ok ((expertPairs label pairs).map fun q => (q.1, (rs q.2).map fun r => (r.time, r))) := by
  have h1 : pairs.mapM (pairResult label f mv mc clipAt mean)
      = .ok (pairs.map fun p => (label p, (rs p).map fun r => (r.time, r))) := by
    apply mapM_ok_of
    intro p hp
    unfold pairResult
    rw [h p hp]
    show Except.ok _ = Except.ok _
    rw [dictOf_nodup]
    rw [List.map_map]; exact hd p hp
  rw [h1]
  show Except.ok _ = Except.ok _
  congr 1
  unfold expertPairs
  rw [← dictOf_map (fun p => (rs p).map fun r => (r.time, r)), List.map_map]
  rfl

theorem ewmaTail_ok {f : Frame τ (Fin n) XR} {E : List (L × (XR × XR))} {rs : XR × XR → List (IEWMA τ (Fin n) XR)}
    {c : EwmaComb L τ n} (h : ewmaTail f (E.map fun q => (q.1, (rs q.2).map fun r => (r.time, r))) = .ok c) :
    c.labels = E.map Prod.fst ∧ (∀ q ∈ E, ∀ r ∈ rs q.2, allFinite r.covariance.get) ∧
    ∃ p : Fin c.labels.length → XR × XR, (∀ k : Fin c.labels.length, E[k.1]? = some (c.labels[k.1], p k)) ∧
      fromSigmas (fun k => covDict (rs (p k))) (realReturns f) (some fun k => some (meanDict (rs (p k)))) = .ok c.comb := by
  set D : List (L × Dict τ (IEWMA τ (Fin n) XR)) := E.map fun q => (q.1, (rs q.2).map fun r => (r.time, r)) with hD
  have hlab : D.map Prod.fst = E.map Prod.fst := by rw [hD, List.map_map]; rfl
  have hlen : (D.map Prod.fst).length = E.length := by rw [hlab, List.length_map]
  have hdict : ∀ k : Fin (D.map Prod.fst).length, (D[k.1]?.map Prod.snd).getD []
      = (rs (E[k.1]'(hlen ▸ k.2)).2).map fun r => (r.time, r) := by
    rintro ⟨k, hk'⟩
    have hk : k < E.length := hlen ▸ hk'
    have e : D[k]? = some ((E[k]).1, (rs (E[k]).2).map fun r => (r.time, r)) := by
      rw [hD, List.getElem?_map, List.getElem?_eq_getElem hk]; rfl
    simp only [e]
    rfl
  unfold ewmaTail at h
  simp only [hdict] at h
  by_cases hfin : ∀ q ∈ E, ∀ r ∈ rs q.2, allFinite r.covariance.get
  · have h1 : finM (fun k : Fin (D.map Prod.fst).length =>
        ((rs (E[k.1]'(hlen ▸ k.2)).2).map fun r => (r.time, r)).mapM fun q => do
          let S ← finiteCov q.2.covariance
          pure (q.1, S)) = .ok fun k => covDict (rs (E[k.1]'(hlen ▸ k.2)).2) :=
      finM_ok _ _ fun k => sigmas_mapM_ok (hfin _ (List.getElem_mem _))
    rw [h1] at h
    replace h : (fromSigmas (fun k : Fin (D.map Prod.fst).length => covDict (rs (E[k.1]'(hlen ▸ k.2)).2)) (realReturns f)
      (some fun k => some (((rs (E[k.1]'(hlen ▸ k.2)).2).map fun r => (r.time, r)).map
        fun q => (q.1, fun i => (q.2.mean i).toReal)))).bind (fun comb => _) = .ok c := h
    rcases h2 : fromSigmas (fun k : Fin (D.map Prod.fst).length => covDict (rs (E[k.1]'(hlen ▸ k.2)).2)) (realReturns f)
      (some fun k => some (((rs (E[k.1]'(hlen ▸ k.2)).2).map fun r => (r.time, r)).map
        fun q => (q.1, fun i => (q.2.mean i).toReal))) with e | comb
    · rw [h2] at h; cases h
    · rw [h2] at h
      cases h
      refine ⟨hlab, hfin, fun k => (E[k.1]'(hlen ▸ k.2)).2, fun k => ?_, ?_⟩
      · have hk : k.1 < E.length := hlen ▸ k.2
        rw [List.getElem?_eq_getElem hk]
        simp only [hD, List.getElem_map]
      · simp only [List.map_map] at h2
        exact h2
  · push Not at hfin
    obtain ⟨q, hq, r, hr, hnf⟩ := hfin
    obtain ⟨i, hi, rfl⟩ := List.getElem_of_mem hq
    exfalso
    rcases h1 : finM (fun k : Fin (D.map Prod.fst).length =>
        ((rs (E[k.1]'(hlen ▸ k.2)).2).map fun r => (r.time, r)).mapM fun q => do
          let S ← finiteCov q.2.covariance
          pure (q.1, S)) with e | sg
    · rw [h1] at h; cases h
    · have := (finM_ok_iff _ _).mp h1 ⟨i, hlen ▸ hi⟩
      rw [sigmas_mapM_error fun hh => hnf (hh r hr)] at this
      cases this

theorem ewmaTail_error {f : Frame τ (Fin n) XR} {E : List (L × (XR × XR))} {rs : XR × XR → List (IEWMA τ (Fin n) XR)}
    {e : Err} (h : ewmaTail f (E.map fun q => (q.1, (rs q.2).map fun r => (r.time, r))) = .error e) :
    (e = .linAlgError ∧ ∃ q ∈ E, ∃ r ∈ rs q.2, ¬ allFinite r.covariance.get) ∨
    ((∀ q ∈ E, ∀ r ∈ rs q.2, allFinite r.covariance.get) ∧ ∃ (K : ℕ) (p : Fin K → XR × XR),
      (∀ k, ∃ q ∈ E, q.2 = p k) ∧
      fromSigmas (fun k => covDict (rs (p k))) (realReturns f) (some fun k => some (meanDict (rs (p k)))) = .error e) := by
  set D : List (L × Dict τ (IEWMA τ (Fin n) XR)) := E.map fun q => (q.1, (rs q.2).map fun r => (r.time, r)) with hD
  have hlab : D.map Prod.fst = E.map Prod.fst := by rw [hD, List.map_map]; rfl
  have hlen : (D.map Prod.fst).length = E.length := by rw [hlab, List.length_map]
  have hdict : ∀ k : Fin (D.map Prod.fst).length, (D[k.1]?.map Prod.snd).getD []
      = (rs (E[k.1]'(hlen ▸ k.2)).2).map fun r => (r.time, r) := by
    rintro ⟨k, hk'⟩
    have hk : k < E.length := hlen ▸ hk'
    have e : D[k]? = some ((E[k]).1, (rs (E[k]).2).map fun r => (r.time, r)) := by
      rw [hD, List.getElem?_map, List.getElem?_eq_getElem hk]; rfl
    simp only [e]
    rfl
  unfold ewmaTail at h
  simp only [hdict] at h
  by_cases hfin : ∀ q ∈ E, ∀ r ∈ rs q.2, allFinite r.covariance.get
  · right
    refine ⟨hfin, (D.map Prod.fst).length, fun k => (E[k.1]'(hlen ▸ k.2)).2,
      fun k => ⟨_, List.getElem_mem (hlen ▸ k.2), rfl⟩, ?_⟩
    have h1 : finM (fun k : Fin (D.map Prod.fst).length =>
        ((rs (E[k.1]'(hlen ▸ k.2)).2).map fun r => (r.time, r)).mapM fun q => do
          let S ← finiteCov q.2.covariance
          pure (q.1, S)) = .ok fun k => covDict (rs (E[k.1]'(hlen ▸ k.2)).2) :=
      finM_ok _ _ fun k => sigmas_mapM_ok (hfin _ (List.getElem_mem _))
    rw [h1] at h
    replace h : (fromSigmas (fun k : Fin (D.map Prod.fst).length => covDict (rs (E[k.1]'(hlen ▸ k.2)).2)) (realReturns f)
      (some fun k => some (((rs (E[k.1]'(hlen ▸ k.2)).2).map fun r => (r.time, r)).map
        fun q => (q.1, fun i => (q.2.mean i).toReal)))).bind (fun comb => _) = .error e := h
    simp only [List.map_map] at h
    rcases h2 : fromSigmas (fun k : Fin (D.map Prod.fst).length => covDict (rs (E[k.1]'(hlen ▸ k.2)).2)) (realReturns f)
      (some fun k => some (meanDict (rs (E[k.1]'(hlen ▸ k.2)).2))) with e' | comb
    · have h2' := h2
      unfold meanDict at h2'
      erw [h2'] at h
      cases h; rfl
    · have h2' := h2
      unfold meanDict at h2'
      erw [h2'] at h
      cases h
  · left
    push Not at hfin
    obtain ⟨q, hq, r, hr, hnf⟩ := hfin
    refine ⟨?_, q, hq, r, hr, hnf⟩
    obtain ⟨i, hi, rfl⟩ := List.getElem_of_mem hq
    rcases h1 : finM (fun k : Fin (D.map Prod.fst).length =>
        ((rs (E[k.1]'(hlen ▸ k.2)).2).map fun r => (r.time, r)).mapM fun q => do
          let S ← finiteCov q.2.covariance
          pure (q.1, S)) with e' | sg
    · rw [h1] at h
      cases h
      obtain ⟨k, hk, _⟩ := finM_error _ _ h1
      by_cases hh : ∀ r ∈ rs (E[k.1]'(hlen ▸ k.2)).2, allFinite r.covariance.get
      · rw [sigmas_mapM_ok hh] at hk; cases hk
      · rw [sigmas_mapM_error hh] at hk; cases hk; rfl
    · have := (finM_ok_iff _ _).mp h1 ⟨i, hlen ▸ hi⟩
      rw [sigmas_mapM_error fun hh => hnf (hh r hr)] at this
      cases this

end CovPred
