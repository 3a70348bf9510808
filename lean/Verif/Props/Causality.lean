import Verif.Lemmas.Pure
import Verif.Props.Examples

/-
No look-ahead and exceptions of `iterated_ewma` (C02, C04).  The theorems hold for every scalar type with a
`nan` that `isnan` recognises: no law of arithmetic is used, so they cover rounding floating point as well.
-/
set_option linter.unusedSectionVars false
namespace CovPred
open Scalar

variable {τ ι : Type} [DecidableEq τ] [Ix ι] {α : Type} [Scalar α]

/-- the results of a run (none, if it raised: every exception precedes the first result) -/
def resultsOf {A : Type} : Except Err (List A) → List A
  | .ok rs => rs
  | .error _ => []

/-! ### C02: no look-ahead -/

theorem resultsOf_run (hnan : isNaN (nan : α) = true) (f : Frame τ ι α) (a : IewmaArgs α)
    (h1 : isZero a.volaHalflife = false) (h2 : isZero a.covHalflife = false) :
    resultsOf (iteratedEwma f a) = pureRun f a := by
  rw [run_eq hnan f a h1 h2]
  split
  · next h =>
    have : covOf f a = [] := nil_of_sublist (f := []) (index_cov f a) h
    simp [resultsOf, pureRun, this]
  · rfl

/-- Rows appended to the returns do not change the earlier results: the results for `f` are a prefix of those for
`f ++ later`, and all further results are for the appended rows. -/
theorem C02_no_lookahead (hnan : isNaN (nan : α) = true) (f later : Frame τ ι α) (a : IewmaArgs α)
    (hdistinct : (f ++ later).index.Nodup) :
    ∃ rs, resultsOf (iteratedEwma (f ++ later) a) = resultsOf (iteratedEwma f a) ++ rs ∧
      ∀ r ∈ rs, r.time ∈ later.index := by
  by_cases hz : isZero a.volaHalflife = true ∨ isZero a.covHalflife = true
  · refine ⟨[], ?_, by simp⟩
    have : ∀ g : Frame τ ι α, resultsOf (iteratedEwma g a) = [] := by
      intro g
      rcases run_zero g a hz with h | h <;> rw [h] <;> rfl
    rw [this, this]; rfl
  · simp only [not_or, Bool.not_eq_true] at hz
    rw [resultsOf_run hnan _ _ hz.1 hz.2, resultsOf_run hnan _ _ hz.1 hz.2]
    apply pureRun_ext
    refine ⟨⟨later, rfl, fun t ht => ht⟩, ?_⟩
    intro t ht
    unfold Frame.index at hdistinct
    rw [List.map_append, List.nodup_append] at hdistinct
    intro ht'
    exact hdistinct.2.2 t ht t ht' rfl

/-- If the run on the shorter frame succeeds, so does the run on the longer one. -/
theorem C02_no_lookahead_ok (hnan : isNaN (nan : α) = true) (f later : Frame τ ι α) (a : IewmaArgs α)
    (hdistinct : (f ++ later).index.Nodup) {rs : List (IEWMA τ ι α)} (h : iteratedEwma f a = .ok rs) :
    ∃ rs', iteratedEwma (f ++ later) a = .ok (rs ++ rs') ∧ ∀ r ∈ rs', r.time ∈ later.index := by
  have hz : ¬ (isZero a.volaHalflife = true ∨ isZero a.covHalflife = true) := by
    intro hz
    rcases run_zero f a hz with h' | h' <;> rw [h'] at h <;> cases h
  simp only [not_or, Bool.not_eq_true] at hz
  obtain ⟨rs', h1, h2⟩ := C02_no_lookahead hnan f later a hdistinct
  rw [h] at h1
  refine ⟨rs', ?_, h2⟩
  have hx : Ext later.index f (f ++ later) := by
    refine ⟨⟨later, rfl, fun t ht => ht⟩, ?_⟩
    intro t ht ht'
    unfold Frame.index at hdistinct
    rw [List.map_append, List.nodup_append] at hdistinct
    exact hdistinct.2.2 t ht t ht' rfl
  have hcadj : Ext later.index (cadjOf f a) (cadjOf (f ++ later) a) := by
    have hret : Ext later.index (retOf f a) (retOf (f ++ later) a) := ((hx.filled a).center (mu1 a) 0 a.mean).1
    have hvol : Ext later.index (volOf f a) (volOf (f ++ later) a) := ((hret.mapVals _).ewmaMean0 _ _ _).mapVals _
    have hadj : Ext later.index (adjOf f a) (adjOf (f ++ later) a) := ((hret.align hvol _).clip _).mapVals _
    exact (hadj.center (mu2 a) 0 a.mean).1
  rw [run_eq hnan f a hz.1 hz.2] at h
  have hne : cadjOf f a ≠ [] := fun e => by rw [if_pos e] at h; cases h
  rw [run_eq hnan _ a hz.1 hz.2] at h1 ⊢
  have hne' : cadjOf (f ++ later) a ≠ [] := by
    obtain ⟨⟨d, hd, _⟩, _⟩ := hcadj
    rw [hd]
    simp [hne]
  rw [if_neg hne'] at h1 ⊢
  rw [show pureRun (f ++ later) a = rs ++ rs' from h1]

/-- The yielded times are a sublist of the index of the returns: in order, no repeats, none invented.  For any
data whatsoever. -/
theorem C03_times_sublist (hnan : isNaN (nan : α) = true) (f : Frame τ ι α) (a : IewmaArgs α)
    {rs : List (IEWMA τ ι α)} (h : iteratedEwma f a = .ok rs) : (rs.map IEWMA.time).Sublist f.index := by
  have hz : ¬ (isZero a.volaHalflife = true ∨ isZero a.covHalflife = true) := by
    intro hz
    rcases run_zero f a hz with h' | h' <;> rw [h'] at h <;> cases h
  simp only [not_or, Bool.not_eq_true] at hz
  have := resultsOf_run hnan f a hz.1 hz.2
  rw [h] at this
  rw [show rs = pureRun f a from this]
  exact index_run f a

example : isNaN (nan : XR) = true ∧ (Ex.frame ++ [(3, finRow fun _ => 1)]).index.Nodup ∧
    ∃ rs, iteratedEwma Ex.frame Ex.args.toArgs = .ok rs ∧ rs.length = 2 := by
  refine ⟨rfl, ?_, _, Ex.run, rfl⟩
  simp [Frame.index, Ex.frame, List.range_succ]

/-! ### C04: exceptions -/

/-- `iterated_ewma` raises nothing but `IndexError`, or for a zero half-life `TypeError`; in particular its label
lookups never fail. With a zero `vola_halflife` or `cov_halflife` it always raises. -/
theorem C04_exceptions (hnan : isNaN (nan : α) = true) (f : Frame τ ι α) (a : IewmaArgs α) :
    (∀ e, iteratedEwma f a = .error e → e = .indexError ∨
      (e = .typeError ∧ (isZero a.volaHalflife = true ∨ isZero a.covHalflife = true))) ∧
    ((isZero a.volaHalflife = true ∨ isZero a.covHalflife = true) → ∃ e, iteratedEwma f a = .error e) := by
  by_cases hz : isZero a.volaHalflife = true ∨ isZero a.covHalflife = true
  · refine ⟨?_, fun _ => ?_⟩
    · intro e he
      rcases run_zero f a hz with h | h <;> rw [h] at he <;> cases he
      · right; exact ⟨rfl, hz⟩
      · left; rfl
    · rcases run_zero f a hz with h | h <;> exact ⟨_, h⟩
  · refine ⟨?_, fun h => absurd h hz⟩
    intro e he
    simp only [not_or, Bool.not_eq_true] at hz
    rw [run_eq hnan f a hz.1 hz.2] at he
    left
    by_cases h : cadjOf f a = []
    · rw [if_pos h] at he; cases he; rfl
    · rw [if_neg h] at he; cases he

open XR in
theorem keep_general0_short {κ : Type} [Ix κ] (b : XR) (fct : Arr ι XR → Arr κ XR) (mp : Int) (cl : Option XR)
    (f : Frame τ ι XR) (h : (f.length : Int) < mp) : keep (general0 b fct mp cl f) = [] := by
  have hmask : ∀ (k : ℕ) (E : Arr κ XR), (k : Int) < mp - 1 → (maskWarmup mp k E).all Scalar.isNaN = true := by
    intro k E hk
    unfold maskWarmup
    rw [if_pos hk, Arr.all_iff]
    intro i
    rw [Arr.get_map, nan_def, mul_nan]
    rfl
  have hloop : ∀ (g : Frame τ ι XR) (n : ℕ) (E : Arr κ XR), ((n + g.length : ℕ) : Int) < mp →
      keep (generalLoop b fct mp cl n E g) = [] := by
    intro g
    induction g with
    | nil => intros; rfl
    | cons p g ih =>
      intro n E hn
      obtain ⟨t, row⟩ := p
      simp only [List.length_cons] at hn
      have := ih (n + 1) (ewmaUpdate b mp cl n E (fct row)) (by omega)
      simp only [generalLoop, keep, List.filter_cons]
      rw [hmask n _ (by omega)]
      simpa [keep] using this
  cases f with
  | nil => rfl
  | cons p g =>
    obtain ⟨t, row⟩ := p
    simp only [List.length_cons] at h
    have := hloop g 1 (fct row) (by omega)
    simp only [general0, keep, List.filter_cons]
    rw [hmask 0 _ (by omega)]
    simpa [keep] using this

/-- With fewer than `min_periods_vola` rows and non-zero half-lives the code raises `IndexError` (it does not
yield an empty sequence). -/
theorem C04_too_short (f : Frame τ ι XR) (a : IewmaArgs XR) (h1 : isZero a.volaHalflife = false)
    (h2 : isZero a.covHalflife = false) (hlen : (f.length : Int) < a.minPeriodsVola) :
    iteratedEwma f a = .error .indexError := by
  rw [run_eq rfl f a h1 h2, if_pos]
  apply nil_of_sublist (f := []) (index_cadj f a)
  have hvol : volOf f a = [] := by
    unfold volOf volatility0 ewmaMean0
    rw [keep_general0_short]
    · rfl
    · have : (retOf f a).length ≤ f.length := by
        have := (index_ret f a).length_le
        simpa using this
      simp only [Frame.mapVals, List.length_map]
      omega
  have : ∀ t, t ∉ (adjOf f a).map Prod.fst := by
    intro t ht
    have := mem_vol_of_adj (α := XR) rfl ht
    rw [hvol] at this
    simp at this
  rw [← List.map_eq_nil_iff (f := Prod.fst)]
  exact List.eq_nil_iff_forall_not_mem.mpr this

example : isZero Ex.args.toArgs.volaHalflife = false ∧ isZero Ex.args.toArgs.covHalflife = false ∧
    ((finRows (τ := ℕ) [] id Ex.x).length : Int) < Ex.args.toArgs.minPeriodsVola := by
  refine ⟨?_, ?_, ?_⟩
  · simp [RealArgs.toArgs, Ex.args, isZero, XR.isZero]
  · simp [RealArgs.toArgs, Ex.args, isZero, XR.isZero]
  · simp [RealArgs.toArgs, Ex.args, finRows]

end CovPred
