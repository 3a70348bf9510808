import Verif.Props.LowRankEwma
import Verif.Props.Causality

/-
No look-ahead in `low_rank_iterated_ewma` (experiments/utils/low_rank_ewma.py): C100. For any data, `nan`s included.
-/
set_option linter.unusedSectionVars false

namespace CovPred
open Matrix XR

variable {τ : Type} [DecidableEq τ] {n r : ℕ}

private theorem loop_append (eigsh : Eigsh) (b : ℝ) (mp : Int) (k : ℕ) (x : LowRankDiag n r) (f e : Frame τ (Fin n) XR) :
    ∃ h, (lowRankLoop eigsh b mp k x (f ++ e)).1 = (lowRankLoop eigsh b mp k x f).1 ++ h ∧
      ∀ t ∈ h.map Prod.fst, t ∈ e.map Prod.fst := by
  induction f generalizing k x with
  | nil =>
    refine ⟨_, rfl, ?_⟩
    simp only [List.nil_append]
    induction e generalizing k x with
    | nil => simp [lowRankLoop]
    | cons p e ih =>
      obtain ⟨t, row⟩ := p
      unfold lowRankLoop
      cases realRow row with
      | none => simp
      | some v =>
        simp only
        cases lowRankStep eigsh b k x v with
        | error err => simp
        | ok y =>
          simp only [List.map_cons, List.mem_cons]
          rintro s (hs | hs)
          · exact Or.inl hs
          · exact Or.inr (ih (k + 1) y s hs)
  | cons p f ih =>
    obtain ⟨t, row⟩ := p
    rw [List.cons_append]
    unfold lowRankLoop
    cases realRow row with
    | none => exact ⟨[], by simp, by simp⟩
    | some v =>
      simp only
      cases lowRankStep eigsh b k x v with
      | error err => exact ⟨[], by simp, by simp⟩
      | ok y =>
        obtain ⟨h, h1, h2⟩ := ih (k + 1) y
        exact ⟨h, by simp only [h1, List.cons_append], h2⟩

private theorem loop_labels (eigsh : Eigsh) (b : ℝ) (mp : Int) (k : ℕ) (x : LowRankDiag n r) (f : Frame τ (Fin n) XR) :
    ∀ t ∈ (lowRankLoop eigsh b mp k x f).1.map Prod.fst, t ∈ f.map Prod.fst := by
  obtain ⟨h, h1, h2⟩ := loop_append eigsh b mp k x [] f
  simp only [List.nil_append, lowRankLoop] at h1
  rw [h1]; exact h2

private theorem general_append (eigsh : Eigsh) (r : ℕ) (hl al : Option ℝ) (mp : Int) (f e : Frame τ (Fin n) XR) :
    ∃ h, (generalLowRank eigsh r (f ++ e) hl al mp).1 = (generalLowRank eigsh r f hl al mp).1 ++ h ∧
      ∀ t ∈ h.map Prod.fst, t ∈ e.map Prod.fst := by
  have labels : ∀ g : Frame τ (Fin n) XR,
      ∀ t ∈ (generalLowRank eigsh r g hl al mp).1.map Prod.fst, t ∈ g.map Prod.fst := by
    intro g
    unfold generalLowRank
    cases lowRankBeta hl al with
    | error err => simp
    | ok b =>
      cases g with
      | nil => simp
      | cons p g =>
        obtain ⟨t, row⟩ := p
        simp only
        by_cases hr : r = 0
        · simp [hr]
        · rw [if_neg hr]
          cases realRow row with
          | none => simp
          | some v =>
            simp only [List.map_cons, List.mem_cons]
            rintro s (hs | hs)
            · exact Or.inl hs
            · exact Or.inr (loop_labels _ _ _ _ _ _ s hs)
  cases f with
  | nil =>
    refine ⟨(generalLowRank eigsh r e hl al mp).1, ?_, labels e⟩
    have : (generalLowRank eigsh r ([] : Frame τ (Fin n) XR) hl al mp).1 = [] := by
      unfold generalLowRank; cases lowRankBeta hl al <;> rfl
    rw [this]; rfl
  | cons p f =>
    obtain ⟨t, row⟩ := p
    rw [List.cons_append]
    unfold generalLowRank
    cases lowRankBeta hl al with
    | error err => exact ⟨[], by simp, by simp⟩
    | ok b =>
      simp only
      by_cases hr : r = 0
      · simp only [if_pos hr]; exact ⟨[], by simp, by simp⟩
      · simp only [if_neg hr]
        cases realRow row with
        | none => exact ⟨[], by simp, by simp⟩
        | some v =>
          obtain ⟨h, h1, h2⟩ := loop_append eigsh b mp 1
            ({ F := Matrix.of fun i j => if j.val = 0 then v i else 0, d := fun _ => 0 } : LowRankDiag n r) f e
          exact ⟨h, by simp only [h1, List.cons_append], h2⟩

private theorem ewma_append (eigsh : Eigsh) (r : ℕ) (h : ℝ) (mp : Int) (f e : Frame τ (Fin n) XR) :
    ∃ g, (ewmaLowRank eigsh r (f ++ e) h mp).1 = (ewmaLowRank eigsh r f h mp).1 ++ g ∧
      ∀ t ∈ g.map Prod.fst, t ∈ e.map Prod.fst := by
  obtain ⟨g, h1, h2⟩ := general_append eigsh r (some h) none mp f e
  refine ⟨g.filterMap fun p => p.2.map fun x => (p.1, x), ?_, ?_⟩
  · unfold ewmaLowRank
    simp only [h1, List.filterMap_append]
  · intro t ht
    obtain ⟨p, hp, rfl⟩ := List.mem_map.mp ht
    obtain ⟨q, hq, hq'⟩ := List.mem_filterMap.mp hp
    obtain ⟨x, _, hx⟩ := Option.map_eq_some_iff.mp hq'
    rw [← hx]
    exact h2 _ (List.mem_map_of_mem hq)

private theorem ewma_labels (eigsh : Eigsh) (r : ℕ) (h : ℝ) (mp : Int) (f : Frame τ (Fin n) XR) :
    ∀ t ∈ (ewmaLowRank eigsh r f h mp).1.map Prod.fst, t ∈ f.map Prod.fst := by
  obtain ⟨g, h1, h2⟩ := ewma_append eigsh r h mp [] f
  have h0 : (ewmaLowRank eigsh r ([] : Frame τ (Fin n) XR) h mp).1 = [] := by
    unfold ewmaLowRank generalLowRank; cases lowRankBeta (some h) none <;> rfl
  rw [h0, List.nil_append, List.nil_append] at h1
  rw [h1]; exact h2

private theorem genMap_prefix {A B : Type} (f : A → Except Err B) (l l' : List A) :
    ∃ h, (genMap f (l ++ l')).1 = (genMap f l).1 ++ h := by
  induction l with
  | nil => exact ⟨_, rfl⟩
  | cons a l ih =>
    obtain ⟨h, hh⟩ := ih
    cases ha : f a with
    | error e => exact ⟨[], by simp [genMap, ha]⟩
    | ok b => exact ⟨h, by simp [genMap, ha, hh]⟩

private theorem genMap_congr {A B : Type} {f g : A → Except Err B} {l : List A} (h : ∀ a ∈ l, f a = g a) :
    genMap f l = genMap g l := by
  induction l with
  | nil => rfl
  | cons a l ih =>
    simp only [genMap, h a List.mem_cons_self, ih fun b hb => h b (List.mem_cons_of_mem _ hb)]

private theorem genMap_mem {A B : Type} {f : A → Except Err B} {l : List A} {b : B} (h : b ∈ (genMap f l).1) :
    ∃ a ∈ l, f a = .ok b := by
  induction l with
  | nil => cases h
  | cons a l ih =>
    cases ha : f a with
    | error e => simp [genMap, ha] at h
    | ok c =>
      simp only [genMap, ha, List.mem_cons] at h
      rcases h with rfl | h
      · exact ⟨a, List.mem_cons_self, ha⟩
      · obtain ⟨a', h1, h2⟩ := ih h; exact ⟨a', List.mem_cons_of_mem _ h1, h2⟩

private theorem Ext.nil_of {L : List τ} {f f' : Frame τ (Fin n) XR} (h : Ext L f f') (h' : f' = []) : f = [] := by
  obtain ⟨⟨g, rfl, _⟩, _⟩ := h
  exact (List.append_eq_nil_iff.mp h').1

private theorem Ext.locE {L : List τ} {f f' : Frame τ (Fin n) XR} (hx : Ext L f f') {t : τ} (ht : t ∉ L) :
    locE f' t = locE f t := by
  obtain ⟨⟨e, rfl, he⟩, _⟩ := hx
  unfold CovPred.locE
  rw [loc_append, loc_none (fun h => ht (he t h)), Option.or_none]

private theorem prep_ext {L : List τ} {f f' : Frame τ (Fin n) XR} (hx : Ext L f f') {a : RealArgs} (ha : a.Valid)
    {v rm am adj : Frame τ (Fin n) XR} (h : lowRankPrep f a = .ok (v, rm, am, adj)) :
    ∃ v' rm' am' adj', lowRankPrep f' a = .ok (v', rm', am', adj') ∧ Ext L v v' ∧ Ext L rm rm' ∧ Ext L am am' ∧ Ext L adj adj' := by
  have hz1 : Scalar.isZero a.toArgs.volaHalflife = false := by
    have : ¬ Scalar.isZero (fin a.volaHalflife) = true := by rw [isZero_fin]; exact ha.vola.ne'
    simpa [RealArgs.toArgs] using this
  have hz2 : Scalar.isZero a.toArgs.covHalflife = false := by
    have : ¬ Scalar.isZero (fin a.covHalflife) = true := by rw [isZero_fin]; exact ha.cov.ne'
    simpa [RealArgs.toArgs] using this
  unfold lowRankPrep at h ⊢
  simp only [bind, Except.bind] at h ⊢
  rw [center_eq0 (truthy_getD_ne hz1)] at h ⊢
  by_cases h1 : a.mean = true ∧ f = []
  · rw [if_pos h1] at h; cases h
  rw [if_neg h1] at h
  rw [if_neg fun hc => h1 ⟨hc.1, hx.nil_of hc.2⟩]
  simp only at h ⊢
  have hc := hx.center ((Scalar.truthy a.toArgs.muHalflife1).getD a.toArgs.volaHalflife) 0 a.mean
  generalize center0 f ((Scalar.truthy a.toArgs.muHalflife1).getD a.toArgs.volaHalflife) 0 a.mean = c at h hc
  generalize center0 f' ((Scalar.truthy a.toArgs.muHalflife1).getD a.toArgs.volaHalflife) 0 a.mean = c' at hc ⊢
  rw [volatility_eq0 hz1] at h ⊢
  by_cases h2 : c.1 = []
  · rw [if_pos h2] at h; cases h
  rw [if_neg h2] at h
  rw [if_neg fun hcon => h2 (hc.1.nil_of hcon)]
  simp only at h ⊢
  have hvol : Ext L (volatility0 c.1 a.toArgs.volaHalflife a.minPeriodsVola a.toArgs.clipAt)
      (volatility0 c'.1 a.toArgs.volaHalflife a.minPeriodsVola a.toArgs.clipAt) :=
    ((hc.1.mapVals _).ewmaMean0 _ _ _).mapVals _
  generalize volatility0 c.1 a.toArgs.volaHalflife a.minPeriodsVola a.toArgs.clipAt = w at h hvol
  generalize volatility0 c'.1 a.toArgs.volaHalflife a.minPeriodsVola a.toArgs.clipAt = w' at hvol ⊢
  have hadj := (hc.1.align hvol (· / ·)).clip a.toArgs.clipAt
  generalize clip (Frame.alignWith (· / ·) c.1 w) a.toArgs.clipAt = d at h hadj
  generalize clip (Frame.alignWith (· / ·) c'.1 w') a.toArgs.clipAt = d' at hadj ⊢
  rw [center_eq0 (truthy_getD_ne hz2)] at h ⊢
  by_cases h3 : a.mean = true ∧ d = []
  · rw [if_pos h3] at h; cases h
  rw [if_neg h3] at h
  rw [if_neg fun hcon => h3 ⟨hcon.1, hadj.nil_of hcon.2⟩]
  simp only at h ⊢
  have hc2 := hadj.center ((Scalar.truthy a.toArgs.muHalflife2).getD a.toArgs.covHalflife) 0 a.mean
  cases h
  exact ⟨_, _, _, _, rfl, hvol, hc.2, hc2.2, hc2.1⟩

/-- **C100** Rows appended to the returns do not change the earlier results of `low_rank_iterated_ewma`: the results for
`f` are a prefix of those for `f ++ later`, and all further results are for appended rows, for any data and rank. -/
theorem C100_no_lookahead (eigsh : Eigsh) (r : ℕ) (f later : Frame τ (Fin n) XR) {a : RealArgs} (ha : a.Valid)
    (hdistinct : (f ++ later).index.Nodup) :
    ∃ more, (lowRankIteratedEwma eigsh r (f ++ later) a).1 = (lowRankIteratedEwma eigsh r f a).1 ++ more := by
  have hx : Ext later.index f (f ++ later) := by
    refine ⟨⟨later, rfl, fun t ht => ht⟩, ?_⟩
    intro t ht ht'
    unfold Frame.index at hdistinct
    rw [List.map_append, List.nodup_append] at hdistinct
    exact hdistinct.2.2 t ht t ht' rfl
  cases hp : lowRankPrep f a with
  | error e =>
    refine ⟨(lowRankIteratedEwma eigsh r (f ++ later) a).1, ?_⟩
    have : (lowRankIteratedEwma eigsh r f a).1 = [] := by unfold lowRankIteratedEwma; rw [hp]
    rw [this]; rfl
  | ok q =>
    obtain ⟨v, rm, am, adj⟩ := q
    obtain ⟨v', rm', am', adj', hp', e1, e2, e3, e4⟩ := prep_ext hx ha hp
    have hadjL := e4.2
    obtain ⟨⟨g, rfl, hg⟩, _⟩ := e4
    obtain ⟨u, hu, hul⟩ := ewma_append eigsh r a.covHalflife a.minPeriodsCov adj g
    unfold lowRankIteratedEwma
    rw [hp, hp']
    simp only [hu]
    obtain ⟨more, hmore⟩ := genMap_prefix (fun p => lowRankItem a.mean v' rm' am' p.1 p.2)
      (ewmaLowRank eigsh r adj a.covHalflife a.minPeriodsCov).1 u
    refine ⟨more, ?_⟩
    rw [hmore]
    congr 2
    apply genMap_congr
    intro p hpm
    have hpL : p.1 ∉ later.index := hadjL _ (ewma_labels eigsh r _ _ _ _ (List.mem_map_of_mem hpm))
    unfold lowRankItem
    rw [e1.locE hpL, e2.locE hpL, e3.locE hpL]

/-- The results carry labels of the returns. -/
theorem C100_times (eigsh : Eigsh) (r : ℕ) (f : Frame τ (Fin n) XR) {a : RealArgs} (ha : a.Valid)
    {x : LowRankItem τ n r} (hx : x ∈ (lowRankIteratedEwma eigsh r f a).1) : x.time ∈ f.index := by
  unfold lowRankIteratedEwma at hx
  cases hp : lowRankPrep f a with
  | error e => rw [hp] at hx; cases hx
  | ok q =>
    obtain ⟨v, rm, am, adj⟩ := q
    have hext : Ext f.index ([] : Frame τ (Fin n) XR) f := ⟨⟨f, rfl, fun t ht => ht⟩, by simp⟩
    rw [hp] at hx
    obtain ⟨p, hpm, hpe⟩ := genMap_mem hx
    have h1 := ewma_labels eigsh r _ _ _ p.1 (List.mem_map_of_mem hpm)
    have h2 : x.time = p.1 := by
      unfold lowRankItem at hpe
      simp only [bind, Except.bind, pure, Except.pure] at hpe
      cases hm : a.mean <;> rw [hm] at hpe <;> cases hv : locE v p.1 <;> cases hr : locE rm p.1 <;>
        cases hk : locE am p.1 <;> simp [hv, hr, hk] at hpe <;> (subst hpe; rfl)
    rw [h2]
    -- the labels of the adjusted returns are labels of the returns
    have hz1 : Scalar.isZero a.toArgs.volaHalflife = false := by
      have : ¬ Scalar.isZero (fin a.volaHalflife) = true := by rw [isZero_fin]; exact ha.vola.ne'
      simpa [RealArgs.toArgs] using this
    have hz2 : Scalar.isZero a.toArgs.covHalflife = false := by
      have : ¬ Scalar.isZero (fin a.covHalflife) = true := by rw [isZero_fin]; exact ha.cov.ne'
      simpa [RealArgs.toArgs] using this
    unfold lowRankPrep at hp
    simp only [bind, Except.bind] at hp
    rw [center_eq0 (truthy_getD_ne hz1)] at hp
    split at hp
    · cases hp
    next c hc =>
    split at hc
    · cases hc
    cases hc
    rw [volatility_eq0 hz1] at hp
    split at hp
    · cases hp
    next w hw =>
    split at hw
    · cases hw
    cases hw
    rw [center_eq0 (truthy_getD_ne hz2)] at hp
    split at hp
    · cases hp
    next d hd =>
    split at hd
    · cases hd
    cases hd
    cases hp
    have s1 := (index_center0 _ _ _ _).subset h1
    have s2 := (index_clip _ _).subset s1
    rw [index_align] at s2
    exact (index_center0 _ _ _ _).subset s2

example : (finFrame 3 id LowRankEx.x ++ [(3, finRow fun _ => 1)] : Frame ℕ (Fin 3) XR).index.Nodup ∧
    (lowRankIteratedEwma someEigsh 2 (finFrame 3 id LowRankEx.x) LowRankEx.args).1.length = 3 := by
  constructor
  · simp [Frame.index, finFrame, finRows, List.range_succ]
  · obtain ⟨items, h, hl⟩ := C95_nonzero_returns someEigsh_correct (r := 2) (by norm_num) (by norm_num) LowRankEx.valid rfl
      LowRankEx.distinct (fun t _ i => LowRankEx.x_ne t i) LowRankEx.run
    rw [h, hl, List.length_map]
    rfl

end CovPred
