import Verif.Lemmas.Pure
import Verif.Props.Causality

/-
Symmetry and `nan` propagation of `iterated_ewma` on arbitrary data (C06, C11).
-/
set_option linter.unusedSectionVars false
namespace CovPred
open XR

variable {τ ι κ : Type} [DecidableEq τ] [Ix ι] [Ix κ]

/-! ### C06: symmetry -/

theorem generalLoop_forall {P : Arr κ XR → Prop} {b : XR} {fct : Arr ι XR → Arr κ XR} {mp : Int} {cl : Option XR}
    (hf : ∀ r, P (fct r)) (hu : ∀ n E N, P E → P N → P (ewmaUpdate b mp cl n E N))
    (hm : ∀ k E, P E → P (maskWarmup mp k E)) (f : Frame τ ι XR) (n : ℕ) (E : Arr κ XR) (hE : P E) :
    ∀ p ∈ generalLoop b fct mp cl n E f, P p.2 := by
  induction f generalizing n E with
  | nil => intro p hp; cases hp
  | cons q f ih =>
    obtain ⟨t, row⟩ := q
    intro p hp
    simp only [generalLoop, List.mem_cons] at hp
    rcases hp with rfl | hp
    · exact hm _ _ (hu _ _ _ hE (hf _))
    · exact ih _ _ (hu _ _ _ hE (hf _)) p hp

theorem general0_forall {P : Arr κ XR → Prop} {b : XR} {fct : Arr ι XR → Arr κ XR} {mp : Int} {cl : Option XR}
    (hf : ∀ r, P (fct r)) (hu : ∀ n E N, P E → P N → P (ewmaUpdate b mp cl n E N))
    (hm : ∀ k E, P E → P (maskWarmup mp k E)) (f : Frame τ ι XR) : ∀ p ∈ general0 b fct mp cl f, P p.2 := by
  cases f with
  | nil => intro p hp; cases hp
  | cons q f =>
    obtain ⟨t, row⟩ := q
    intro p hp
    simp only [general0, List.mem_cons] at hp
    rcases hp with rfl | hp
    · exact hm _ _ (hf _)
    · exact generalLoop_forall hf hu hm f _ _ (hf _) p hp

theorem run_of_ok {f : Frame τ ι XR} {a : IewmaArgs XR} {rs : List (IEWMA τ ι XR)} (h : iteratedEwma f a = .ok rs) :
    rs = pureRun f a := by
  have hz : ¬ (Scalar.isZero a.volaHalflife = true ∨ Scalar.isZero a.covHalflife = true) := by
    intro hz
    rcases run_zero f a hz with h' | h' <;> rw [h'] at h <;> cases h
  simp only [not_or, Bool.not_eq_true] at hz
  have := resultsOf_run (α := XR) rfl f a hz.1 hz.2
  rw [h] at this
  exact this

/-- Every yielded covariance is symmetric, whatever the data (`nan` and infinite entries included). -/
theorem C06_symmetric {f : Frame τ ι XR} {a : IewmaArgs XR} {rs : List (IEWMA τ ι XR)} (h : iteratedEwma f a = .ok rs)
    {r : IEWMA τ ι XR} (hr : r ∈ rs) (i j : ι) : r.covariance (i, j) = r.covariance (j, i) := by
  rw [run_of_ok h] at hr
  unfold pureRun at hr
  obtain ⟨p, hp, rfl⟩ := List.mem_map.mp hr
  have hsym : ∀ i j, p.2 (i, j) = p.2 (j, i) := by
    have := general0_forall (P := fun M : Arr (ι × ι) XR => ∀ i j, M (i, j) = M (j, i)) (f := cadjOf f a)
      (b := beta a.covHalflife) (fct := outer) (mp := a.minPeriodsCov) (cl := none)
      (fun r i j => by simp only [outer, Arr.get_ofFn]; ac_rfl)
      (fun n E N hE hN i j => by
        simp only [ewmaUpdate, Scalar.truthy, Arr.get_ofFn]
        rw [hE i j, hN i j])
      (fun k E hE i j => by
        unfold maskWarmup
        split
        · rw [Arr.get_map, Arr.get_map, hE i j]
        · exact hE i j)
    unfold covOf ewmaCov0 keep at hp
    exact this p (List.mem_filter.mp hp).1
  simp only [item0, scaleCov, toCorrelation, Arr.get_ofFn]
  rw [hsym i j]
  ac_rfl

example : ∃ rs, iteratedEwma Ex.frame Ex.args.toArgs = .ok rs ∧ itemAt Ex.args 3 id Ex.x 2 ∈ rs :=
  ⟨_, Ex.run, by simp⟩

/-! ### C11: `nan` propagation -/

/-- asset `i` is `nan` in all rows of `f` with labels in `L` -/
def PoisonedOn (L : List τ) (i : ι) (f : Frame τ ι XR) : Prop := ∀ p ∈ f, p.1 ∈ L → p.2 i = nan

/-- `f` is a part without labels in `L`, followed by a part with labels in `L` whose first row is `nan` for `i` -/
def PoisonedFrom (L : List τ) (i : ι) (f : Frame τ ι XR) : Prop :=
  ∃ pre suf : Frame τ ι XR, f = pre ++ suf ∧ (∀ t ∈ pre.map Prod.fst, t ∉ L) ∧ (∀ t ∈ suf.map Prod.fst, t ∈ L) ∧
    ∀ p ∈ suf.head?, p.2 i = nan

theorem npClip_nan (lo hi : XR) : Scalar.npClip nan lo hi = nan := by
  simp [Scalar.npClip, Scalar.maximum, Scalar.minimum]

theorem update_nan_left (b : XR) (mp : Int) (cl : Option XR) (n : ℕ) (E N : Arr ι XR) (i : ι) (h : E i = nan) :
    (ewmaUpdate b mp cl n E N) i = nan := by
  unfold ewmaUpdate
  dsimp only
  split
  · split <;> simp [h]
  · simp [h]

theorem update_nan_right (b : XR) (mp : Int) (cl : Option XR) (n : ℕ) (E N : Arr ι XR) (i : ι) (h : N i = nan) :
    (ewmaUpdate b mp cl n E N) i = nan := by
  unfold ewmaUpdate
  dsimp only
  split
  · split <;> simp [h, npClip_nan]
  · simp [h]

theorem mask_nan (mp : Int) (k : ℕ) (E : Arr ι XR) (i : ι) (h : E i = nan) : (maskWarmup mp k E) i = nan := by
  unfold maskWarmup
  split
  · simp [h]
  · exact h

theorem loop_nan (b : XR) (mp : Int) (cl : Option XR) (i : ι) (f : Frame τ ι XR) (n : ℕ) (E : Arr ι XR)
    (h : E i = nan) : ∀ p ∈ generalLoop b (fun x => x) mp cl n E f, p.2 i = nan := by
  induction f generalizing n E with
  | nil => intro p hp; cases hp
  | cons q f ih =>
    obtain ⟨t, row⟩ := q
    intro p hp
    simp only [generalLoop, List.mem_cons] at hp
    have := update_nan_left b mp cl n E row i h
    rcases hp with rfl | hp
    · exact mask_nan _ _ _ _ this
    · exact ih _ _ this p hp

theorem loop_poison (b : XR) (mp : Int) (cl : Option XR) (i : ι) (L : List τ) (pre suf : Frame τ ι XR)
    (hpre : ∀ t ∈ pre.map Prod.fst, t ∉ L) (hs : ∀ p ∈ suf.head?, p.2 i = nan)
    (n : ℕ) (E : Arr ι XR) : PoisonedOn L i (generalLoop b (fun x => x) mp cl n E (pre ++ suf)) := by
  induction pre generalizing n E with
  | nil =>
    cases suf with
    | nil => intro p hp; cases hp
    | cons q suf =>
      obtain ⟨t, row⟩ := q
      have hrow : row i = nan := hs (t, row) rfl
      intro p hp _
      simp only [List.nil_append, generalLoop, List.mem_cons] at hp
      have := update_nan_right b mp cl n E row i hrow
      rcases hp with rfl | hp
      · exact mask_nan _ _ _ _ this
      · exact loop_nan b mp cl i suf _ _ this p hp
  | cons q pre ih =>
    obtain ⟨t, row⟩ := q
    intro p hp hL
    simp only [List.cons_append, generalLoop, List.mem_cons] at hp
    rcases hp with rfl | hp
    · exact absurd hL (hpre t (by simp))
    · exact ih (fun t ht => hpre t (by simp only [List.map_cons, List.mem_cons]; exact Or.inr ht)) _ _ p hp hL

theorem general0_poison {b : XR} {mp : Int} {cl : Option XR} {i : ι} {L : List τ} {f : Frame τ ι XR}
    (h : PoisonedFrom L i f) : PoisonedOn L i (general0 b (fun x => x) mp cl f) := by
  obtain ⟨pre, suf, rfl, hpre, hsuf, hs⟩ := h
  cases pre with
  | nil =>
    cases suf with
    | nil => intro p hp; cases hp
    | cons q suf =>
      obtain ⟨t, row⟩ := q
      have hrow : row i = nan := hs (t, row) rfl
      intro p hp _
      simp only [List.nil_append, general0, List.mem_cons] at hp
      rcases hp with rfl | hp
      · exact mask_nan _ _ _ _ hrow
      · exact loop_nan b mp cl i suf _ _ hrow p hp
  | cons q pre =>
    obtain ⟨t, row⟩ := q
    intro p hp hL
    simp only [List.cons_append, general0, List.mem_cons] at hp
    rcases hp with rfl | hp
    · exact absurd hL (hpre t (by simp))
    · exact loop_poison b mp cl i L pre suf
        (fun t ht => hpre t (by simp only [List.map_cons, List.mem_cons]; exact Or.inr ht)) hs _ _ p hp hL

theorem PoisonedOn.keep {L : List τ} {i : ι} {f : Frame τ ι XR} (h : PoisonedOn L i f) : PoisonedOn L i (keep f) :=
  fun p hp => h p (List.mem_filter.mp hp).1

theorem PoisonedOn.mapVals {L : List τ} {i : ι} {f : Frame τ ι XR} (h : PoisonedOn L i f) {g : XR → XR}
    (hg : g nan = nan) : PoisonedOn L i (f.mapVals g) := by
  intro p hp hL
  obtain ⟨q, hq, rfl⟩ := List.mem_map.mp hp
  simp only [Arr.get_map]
  rw [h q hq hL, hg]

theorem PoisonedFrom.mapVals {L : List τ} {i : ι} {f : Frame τ ι XR} (h : PoisonedFrom L i f) {g : XR → XR}
    (hg : g nan = nan) : PoisonedFrom L i (f.mapVals g) := by
  obtain ⟨pre, suf, rfl, hpre, hsuf, hs⟩ := h
  refine ⟨pre.mapVals g, suf.mapVals g, List.map_append .., by rw [index_mapVals]; exact hpre,
    by rw [index_mapVals]; exact hsuf, ?_⟩
  cases suf with
  | nil => intro p hp; cases hp
  | cons q suf =>
    intro p hp
    simp only [Frame.mapVals, List.map_cons, List.head?_cons, Option.mem_def, Option.some.injEq] at hp
    subst hp
    simp only [Arr.get_map]
    rw [hs q rfl, hg]

theorem PoisonedOn.loc {L : List τ} {i : ι} {f : Frame τ ι XR} (h : PoisonedOn L i f) {t : τ} (ht : t ∈ L) :
    (locD f t) i = nan := by
  unfold locD
  cases hl : f.loc? t with
  | none => simp [nan_def]
  | some r =>
    simp only [Option.getD_some]
    unfold Frame.loc? at hl
    have : (t, r) ∈ f := by
      rw [List.lookup_eq_some_iff] at hl
      obtain ⟨l1, l2, rfl, _⟩ := hl
      simp
    exact h _ this ht

theorem poison_center {L : List τ} {i : ι} {f : Frame τ ι XR} (h : PoisonedFrom L i f) (hl : XR) (mp : Int)
    (mean : Bool) : PoisonedFrom L i (center0 f hl mp mean).1 := by
  unfold center0
  cases mean with
  | false => exact h
  | true =>
    simp only [if_true]
    have hm : PoisonedOn L i (ewmaMean0 f hl mp none) := (general0_poison h).keep
    have hall : PoisonedOn L i (Frame.alignWith (· - ·) f (ewmaMean0 f hl mp none)) := by
      intro p hp hL
      unfold Frame.alignWith at hp
      obtain ⟨q, hq, rfl⟩ := List.mem_map.mp hp
      have := hm.loc hL
      unfold locD at this
      cases hlq : (ewmaMean0 f hl mp none).loc? q.1 with
      | none => simp [nan_def]
      | some r =>
        rw [hlq] at this
        simp only [Option.getD_some] at this
        simp [this]
    have hk := hall.keep
    obtain ⟨pre, suf, rfl, hpre, hsuf, hs⟩ := h
    generalize hg : ewmaMean0 (pre ++ suf) hl mp none = g at *
    refine ⟨keep (Frame.alignWith (· - ·) pre g), keep (Frame.alignWith (· - ·) suf g), ?_, ?_, ?_, ?_⟩
    · unfold keep Frame.alignWith
      rw [List.map_append, List.filter_append]
    · intro t ht
      have := (index_keep _).subset ht
      rw [index_align] at this
      exact hpre t this
    · intro t ht
      have := (index_keep _).subset ht
      rw [index_align] at this
      exact hsuf t this
    · intro p hp
      have hp' : p ∈ keep (Frame.alignWith (· - ·) suf g) := List.mem_of_mem_head? hp
      apply hk p
      · unfold keep Frame.alignWith at hp' ⊢
        rw [List.map_append, List.filter_append]
        exact List.mem_append_right _ hp'
      · have := (index_keep _).subset (List.mem_map_of_mem (f := Prod.fst) hp')
        rw [index_align] at this
        exact hsuf _ this

/-- With `nan_to_num=False`: if asset `i` is `nan` in the row labelled `t₀`, then in every result for that or a
later row its volatility and its whole row and column of the covariance are `nan`, and with `mean=True` its mean
too.  (Any other entries may be `nan` or infinite as well.) -/
theorem C11_nan_poisons (pre post : Frame τ ι XR) (t₀ : τ) (row : Arr ι XR) (i : ι) (hrow : row i = nan)
    (hdistinct : (pre ++ (t₀, row) :: post).index.Nodup) {a : IewmaArgs XR} (hn : a.nanToNum = false)
    {rs : List (IEWMA τ ι XR)} (h : iteratedEwma (pre ++ (t₀, row) :: post) a = .ok rs)
    {r : IEWMA τ ι XR} (hr : r ∈ rs) (hlate : r.time = t₀ ∨ r.time ∈ post.index) :
    r.volatility i = nan ∧ (∀ j, r.covariance (i, j) = nan ∧ r.covariance (j, i) = nan) ∧
      (a.mean = true → r.mean i = nan) := by
  rw [run_of_ok h] at hr
  unfold pureRun at hr
  obtain ⟨p, hp, rfl⟩ := List.mem_map.mp hr
  set f := pre ++ (t₀, row) :: post with hf
  let L := ((t₀, row) :: post).map Prod.fst
  have h0 : PoisonedFrom L i f := by
    refine ⟨pre, _, rfl, ?_, fun t ht => ht, ?_⟩
    · intro t ht ht'
      unfold Frame.index at hdistinct
      rw [List.map_append, List.nodup_append] at hdistinct
      exact hdistinct.2.2 t ht t ht' rfl
    · intro p hp
      simp only [List.head?_cons, Option.mem_def, Option.some.injEq] at hp
      subst hp
      exact hrow
  have hfill : filled f a = f := by rw [filled_eq, hn]; rfl
  have hret : PoisonedFrom L i (retOf f a) := by
    unfold retOf
    rw [hfill]
    exact poison_center h0 _ _ _
  have hvol : PoisonedOn L i (volOf f a) :=
    ((general0_poison (hret.mapVals (by simp [npow_succ]))).keep).mapVals rfl
  have hL : p.1 ∈ L := by
    simp only [L, List.map_cons, List.mem_cons]
    exact hlate
  have hv := hvol.loc hL
  refine ⟨hv, ?_, ?_⟩
  · intro j
    simp only [item0, scaleCov, Arr.get_ofFn, hv, nan_mul, mul_nan, and_self]
  · intro hm
    simp only [item0, hm, if_true, scaleMean, Arr.get_ofFn, hv, nan_mul, add_nan]

/-- a frame with a `nan` in the second row of asset 1, for which two results are produced -/
noncomputable def Ex.args2 : RealArgs where
  volaHalflife := 2
  covHalflife := 3
  minPeriodsVola := 1
  minPeriodsCov := 1
  nanToNum := false

theorem keep_all {f : Frame τ κ XR} (h : ∀ p ∈ f, ∃ i, Scalar.isNaN (p.2 i) = false) : keep f = f := by
  unfold keep
  rw [List.filter_eq_self]
  intro p hp
  obtain ⟨i, hi⟩ := h p hp
  rw [Bool.not_eq_true', Bool.eq_false_iff]
  intro hc
  rw [(Arr.all_iff _ _).mp hc i] at hi
  cases hi

theorem beta_fin {h : ℝ} (hh : h ≠ 0) : beta (fin h) = fin (betaOf h) := by
  have h1 := decay_fin hh none
  rw [decay_some (by rw [Bool.eq_false_iff]; intro hc; exact hh ((isZero_fin h).mp hc)) none] at h1
  exact Except.ok.inj h1

/-- the frame `[[1, 1], [2, nan]]` -/
noncomputable def Ex.nanFrame : Frame ℕ (Fin 2) XR :=
  [(0, finRow fun _ => 1)] ++ (1, (Arr.ofFn fun i => if i = 1 then nan else fin 2)) :: []

/-- it has a result for the row with the `nan` -/
theorem Ex.run_nan : ∃ rs, iteratedEwma Ex.nanFrame Ex.args2.toArgs = .ok rs ∧ ∃ r ∈ rs, r.time = 1 := by
  have hz1 : Scalar.isZero Ex.args2.toArgs.volaHalflife = false := by
    simp [RealArgs.toArgs, Ex.args2, Scalar.isZero, XR.isZero]
  have hz2 : Scalar.isZero Ex.args2.toArgs.covHalflife = false := by
    simp [RealArgs.toArgs, Ex.args2, Scalar.isZero, XR.isZero]
  have hb0 := betaOf_pos 2
  have hb1 := betaOf_lt_one (h := 2) (by norm_num)
  have hc0 := betaOf_pos 3
  have hc1 := betaOf_lt_one (h := 3) (by norm_num)
  have hd := one_sub_pow_pos hb0 hb1 1
  have hd3 := one_sub_pow_pos hc0 hc1 1
  have hret : retOf Ex.nanFrame Ex.args2.toArgs = Ex.nanFrame := by
    simp [retOf, center0, filled, RealArgs.toArgs, Ex.args2]
  have hvol : ∃ V0 V1 : Arr (Fin 2) XR, volOf Ex.nanFrame Ex.args2.toArgs = [(0, V0), (1, V1)] ∧
      (∃ v, 0 < v ∧ V0 0 = fin v) ∧ (∃ v, 0 < v ∧ V1 0 = fin v) := by
    refine ⟨Arr.map Scalar.sqrt (Arr.map (fun x => Scalar.npow x 2) (finRow fun _ => 1)),
      Arr.map Scalar.sqrt (ewmaUpdate (beta (fin 2)) 1 none 1 (Arr.map (fun x => Scalar.npow x 2) (finRow fun _ => 1))
        (Arr.map (fun x => Scalar.npow x 2) (Arr.ofFn fun i => if i = 1 then nan else fin 2))), ?_, ?_, ?_⟩
    · unfold volOf
      rw [hret]
      simp only [volatility0, ewmaMean0, Ex.nanFrame, RealArgs.toArgs, Ex.args2, Frame.mapVals, general0, generalLoop,
        List.cons_append, List.nil_append, List.map_cons, List.map_nil, maskWarmup, Option.map_none, Scalar.truthy]
      rw [keep_all]
      · simp
      · intro p hp
        simp only [List.mem_cons, List.not_mem_nil, or_false] at hp
        rcases hp with rfl | rfl
        · exact ⟨0, by simp [finRow, fin_npow]⟩
        · refine ⟨0, ?_⟩
          simp only [ewmaUpdate, Scalar.truthy]
          simp [finRow, fin_npow, beta_fin (show (2 : ℝ) ≠ 0 by norm_num), one_def, fin_sub, fin_mul, fin_div hd.ne',
            fin_add]
    · refine ⟨1, one_pos, ?_⟩
      simp [finRow, fin_npow, fin_sqrt]
    · have hpos : 0 < 1 + (1 - betaOf 2) * (2 ^ 2 - 1) / (1 - betaOf 2 ^ (1 + 1)) := by
        have : 0 ≤ (1 - betaOf 2) * (2 ^ 2 - 1) / (1 - betaOf 2 ^ (1 + 1)) := by
          apply div_nonneg _ hd.le
          nlinarith
        linarith
      refine ⟨Real.sqrt (1 + (1 - betaOf 2) * (2 ^ 2 - 1) / (1 - betaOf 2 ^ (1 + 1))), Real.sqrt_pos.mpr hpos, ?_⟩
      rw [← fin_sqrt hpos.le]
      simp only [ewmaUpdate, Scalar.truthy]
      simp [finRow, fin_npow, beta_fin (show (2 : ℝ) ≠ 0 by norm_num), one_def, fin_sub, fin_mul, fin_div hd.ne',
            fin_add]
  obtain ⟨V0, V1, hvol, ⟨v0, hv0, hV0⟩, ⟨v1, hv1, hV1⟩⟩ := hvol
  have hadj : ∃ A0 A1 : Arr (Fin 2) XR, adjOf Ex.nanFrame Ex.args2.toArgs = [(0, A0), (1, A1)] ∧
      (∃ v, A0 0 = fin v) ∧ (∃ v, A1 0 = fin v) := by
    refine ⟨Arr.map (fun x => if Scalar.isNaN x then 0 else x) (Arr.ofFn fun i => (finRow fun _ => 1).get i / V0.get i),
      Arr.map (fun x => if Scalar.isNaN x then 0 else x)
        (Arr.ofFn fun i => (Arr.ofFn fun i => if i = 1 then nan else fin 2).get i / V1.get i), ?_, ?_, ?_⟩
    · unfold adjOf
      rw [hret, hvol]
      have hal : Frame.alignWith (fun x1 x2 => x1 / x2) Ex.nanFrame [(0, V0), (1, V1)] =
          [(0, Arr.ofFn fun i => (finRow fun _ => 1).get i / V0.get i),
           (1, Arr.ofFn fun i => (Arr.ofFn fun i => if i = 1 then nan else fin 2).get i / V1.get i)] := rfl
      rw [hal]
      simp only [clip, RealArgs.toArgs, Ex.args2, Option.map_none, Scalar.truthy]
      have := keep_all (f := [((0 : ℕ), Arr.ofFn fun i => (finRow (fun _ : Fin 2 => 1)).get i / V0.get i),
           (1, Arr.ofFn fun i => (Arr.ofFn fun i : Fin 2 => if i = 1 then nan else fin 2).get i / V1.get i)]) (by
        intro p hp
        simp only [List.mem_cons, List.not_mem_nil, or_false] at hp
        rcases hp with rfl | rfl
        · exact ⟨0, by simp [finRow, hV0, fin_div hv0.ne']⟩
        · exact ⟨0, by simp [hV1, fin_div hv1.ne']⟩)
      unfold keep at this
      unfold Frame.dropnaAll
      rw [this]
      rfl
    · exact ⟨1 / v0, by simp [finRow, hV0, fin_div hv0.ne']⟩
    · exact ⟨2 / v1, by simp [hV1, fin_div hv1.ne']⟩
  obtain ⟨A0, A1, hadj, ⟨a0, hA0⟩, ⟨a1, hA1⟩⟩ := hadj
  have hcadj : cadjOf Ex.nanFrame Ex.args2.toArgs = [(0, A0), (1, A1)] := by
    unfold cadjOf
    rw [hadj]
    simp [center0, RealArgs.toArgs, Ex.args2]
  have hcov : ∃ C0 C1, covOf Ex.nanFrame Ex.args2.toArgs = [(0, C0), (1, C1)] := by
    refine ⟨maskWarmup 1 0 (outer A0), maskWarmup 1 1 (ewmaUpdate (beta (fin 3)) 1 none 1 (outer A0) (outer A1)), ?_⟩
    · unfold covOf ewmaCov0
      rw [hcadj]
      simp only [general0, generalLoop]
      rw [keep_all]
      · rfl
      intro p hp
      simp only [List.mem_cons, List.not_mem_nil, or_false] at hp
      rcases hp with rfl | rfl
      · refine ⟨(0, 0), ?_⟩
        simp [maskWarmup, RealArgs.toArgs, Ex.args2, outer, hA0, fin_mul]
      · refine ⟨(0, 0), ?_⟩
        simp only [ewmaUpdate, Scalar.truthy]
        simp [maskWarmup, RealArgs.toArgs, Ex.args2, outer, hA0, hA1, fin_mul, beta_fin (show (3 : ℝ) ≠ 0 by norm_num),
          one_def, fin_sub, fin_npow, fin_div hd3.ne', fin_add]
  obtain ⟨C0, C1, hcov⟩ := hcov
  rw [run_eq rfl _ _ hz1 hz2, hcadj]
  refine ⟨_, rfl, ?_⟩
  unfold pureRun
  rw [hcov]
  exact ⟨_, by simp only [List.map_cons]; exact List.mem_cons_of_mem _ List.mem_cons_self, rfl⟩

example : ∃ rs, iteratedEwma Ex.nanFrame Ex.args2.toArgs = .ok rs ∧ ∃ r ∈ rs, r.time = 1 ∧ r.volatility 1 = nan := by
  obtain ⟨rs, h, r, hr, ht⟩ := Ex.run_nan
  exact ⟨rs, h, r, hr, ht, (C11_nan_poisons _ _ 1 _ 1 (by simp) (by simp [Frame.index]) rfl h hr (Or.inl ht)).1⟩
end CovPred
