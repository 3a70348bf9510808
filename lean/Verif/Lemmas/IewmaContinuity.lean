import Verif.Props.Iewma
import Verif.Lemmas.Continuity
import Mathlib.Topology.Algebra.Order.LiminfLimsup
import Mathlib.Analysis.SpecialFunctions.Pow.Continuity

/-
The closed forms of `iterated_ewma` (Spec/Iewma) depend continuously on the returns wherever the volatilities in use are positive.
-/
set_option linter.unusedSectionVars false
namespace CovPred
open Filter

variable {τ ι Y : Type} [Ix ι] {l : Filter Y}

theorem halflifeAverage_tendsto {h : ℝ} {t : ℕ} {X : Y → ℕ → ℝ} {x : ℕ → ℝ} (hX : ∀ k ≤ t, Tendsto (fun y => X y k) l (nhds (x k))) :
    Tendsto (fun y => halflifeAverage h (X y) t) l (nhds (halflifeAverage h x t)) := by
  unfold halflifeAverage
  refine Tendsto.div_const (tendsto_finsetSum _ fun k hk => ?_) _
  exact (hX k (by rw [Finset.mem_range] at hk; omega)).const_mul _

theorem muOf_tendsto {mean : Bool} {h : ℝ} {t : ℕ} {X : Y → ℕ → ι → ℝ} {x : ℕ → ι → ℝ} {i : ι}
    (hX : ∀ k ≤ t, Tendsto (fun y => X y k i) l (nhds (x k i))) : Tendsto (fun y => muOf mean h (X y) t i) l (nhds (muOf mean h x t i)) := by
  unfold muOf
  cases mean with
  | false => exact tendsto_const_nhds
  | true => exact halflifeAverage_tendsto (X := fun y k => X y k i) hX

theorem cRet_tendsto {a : RealArgs} {t : ℕ} {X : Y → ℕ → ι → ℝ} {x : ℕ → ι → ℝ} {i : ι}
    (hX : ∀ k ≤ t, Tendsto (fun y => X y k i) l (nhds (x k i))) : Tendsto (fun y => cRet a (X y) t i) l (nhds (cRet a x t i)) :=
  (hX t le_rfl).sub (muOf_tendsto hX)

theorem varSeq_tendsto {b : ℝ} {mv : Int} {clip : Option ℝ} {X : Y → ℕ → ℝ} {x : ℕ → ℝ} : ∀ {t : ℕ},
    (∀ k ≤ t, Tendsto (fun y => X y k) l (nhds (x k))) → Tendsto (fun y => varSeq b mv clip (X y) t) l (nhds (varSeq b mv clip x t))
  | 0, hX => hX 0 le_rfl
  | t + 1, hX => by
    have ih := varSeq_tendsto (b := b) (mv := mv) (clip := clip) (t := t) fun k hk => hX k (by omega)
    have hq : Tendsto (fun y => clippedQ mv clip (t + 1) (X y (t + 1)) (varSeq b mv clip (X y) t)) l
        (nhds (clippedQ mv clip (t + 1) (x (t + 1)) (varSeq b mv clip x t))) := by
      unfold clippedQ
      cases clip with
      | none => exact hX _ le_rfl
      | some c =>
        dsimp only
        split
        · exact (hX _ le_rfl).min (ih.const_mul _)
        · exact hX _ le_rfl
    exact ih.add (((hq.sub ih).const_mul _).div_const _)

theorem vol_tendsto {a : RealArgs} {t : ℕ} {X : Y → ℕ → ι → ℝ} {x : ℕ → ι → ℝ} {i : ι}
    (hX : ∀ k ≤ t, Tendsto (fun y => X y k i) l (nhds (x k i))) : Tendsto (fun y => vol a (X y) t i) l (nhds (vol a x t i)) := by
  unfold vol volSq
  refine (Real.continuous_sqrt.tendsto _).comp (varSeq_tendsto (X := fun y k => cRet a (X y) k i ^ 2) fun k hk => ?_)
  exact (cRet_tendsto fun j hj => hX j (by omega)).pow 2

/-- the returns tend to `x`, and all volatilities in use are positive -/
structure Approach (l : Filter Y) (a : RealArgs) (T : ℕ) (X : Y → ℕ → ι → ℝ) (x : ℕ → ι → ℝ) : Prop where
  tends : ∀ t < T, ∀ i, Tendsto (fun y => X y t i) l (nhds (x t i))
  pos : ∀ t < T, a.minPeriodsVola - 1 ≤ (t : Int) → ∀ i, 0 < vol a x t i

section
variable {a : RealArgs} {T : ℕ} {X : Y → ℕ → ι → ℝ} {x : ℕ → ι → ℝ}

theorem Approach.vol (h : Approach l a T X x) {t : ℕ} (ht : t < T) (i : ι) : Tendsto (fun y => CovPred.vol a (X y) t i) l (nhds (CovPred.vol a x t i)) :=
  vol_tendsto fun k hk => h.tends k (by omega) i

theorem Approach.live [Nonempty ι] (h : Approach l a T X x) : ∀ᶠ y in l, CovPred.live a T (X y) = CovPred.live a T x := by
  obtain ⟨i⟩ := ‹Nonempty ι›
  have h1 : ∀ᶠ y in l, ∀ t ∈ Finset.range T, a.minPeriodsVola - 1 ≤ (t : Int) → 0 < CovPred.vol a (X y) t i := by
    rw [Filter.eventually_all_finset]
    intro t ht
    rw [Finset.mem_range] at ht
    by_cases hm : a.minPeriodsVola - 1 ≤ (t : Int)
    · exact ((h.vol ht i).eventually (lt_mem_nhds (h.pos t ht hm i))).mono fun y hy _ => hy
    · exact .of_forall fun y hy => absurd hy hm
  refine h1.mono fun y hy => ?_
  unfold CovPred.live
  refine List.filter_congr fun t ht => ?_
  rw [List.mem_range] at ht
  rw [decide_eq_decide]
  refine and_congr_right fun hm => ⟨fun _ => ⟨i, fun hc => (h.pos t ht hm i).ne' hc.1⟩, fun _ => ⟨i, fun hc => (hy t (Finset.mem_range.2 ht) hm).ne' hc.1⟩⟩

theorem getD_live {j : ℕ} (hj : j < (live a T x).length) : (live a T x).getD j 0 < T ∧ a.minPeriodsVola - 1 ≤ (((live a T x).getD j 0 : ℕ) : Int) := by
  have hm : (live a T x).getD j 0 ∈ live a T x := by rw [getD_lt hj]; exact List.getElem_mem hj
  exact ⟨(mem_live.1 hm).1, (mem_live.1 hm).2.1⟩

theorem Approach.adj [Nonempty ι] (h : Approach l a T X x) {j : ℕ} (hj : j < (CovPred.live a T x).length) (i : ι) :
    Tendsto (fun y => adjAt a T (X y) j i) l (nhds (adjAt a T x j i)) := by
  obtain ⟨ht, hm⟩ := getD_live hj
  set t := (CovPred.live a T x).getD j 0 with htd
  have hv := h.pos t ht hm i
  have h1 := h.vol ht i
  have h2 : Tendsto (fun y => cRet a (X y) t i) l (nhds (cRet a x t i)) := cRet_tendsto fun k hk => h.tends k (by omega) i
  have h3 := h2.div h1 hv.ne'
  have key : Tendsto (fun y => adjReal a.clip (cRet a (X y) t i) (CovPred.vol a (X y) t i)) l (nhds (adjReal a.clip (cRet a x t i) (CovPred.vol a x t i))) := by
    cases hc : a.clip with
    | none => exact h3
    | some c =>
      have e : ∀ {u s : ℝ}, 0 < s → adjReal (some c) u s = max (-|c|) (min (u / s) |c|) := fun hs => by
        unfold adjReal; dsimp only; rw [if_neg hs.ne']
      rw [e hv]
      refine (tendsto_const_nhds.max (h3.min tendsto_const_nhds)).congr' ?_
      exact (h1.eventually (lt_mem_nhds hv)).mono fun y hy => (e hy).symm
  refine key.congr' (h.live.mono fun y hy => ?_)
  unfold adjAt
  dsimp only
  rw [hy, ← htd]

theorem Approach.z [Nonempty ι] (h : Approach l a T X x) {j : ℕ} (hj : j < (CovPred.live a T x).length) (i : ι) :
    Tendsto (fun y => zAt a T (X y) j i) l (nhds (zAt a T x j i)) :=
  (h.adj hj i).sub (muOf_tendsto (X := fun y => adjAt a T (X y)) fun _ hk => h.adj (hk.trans_lt hj) i)

theorem Approach.cov [Nonempty ι] (h : Approach l a T X x) {j : ℕ} (hj : j < (CovPred.live a T x).length) (p : ι × ι) :
    Tendsto (fun y => covAt a T (X y) j p) l (nhds (covAt a T x j p)) :=
  halflifeAverage_tendsto fun _ hk => (h.z (hk.trans_lt hj) p.1).mul (h.z (hk.trans_lt hj) p.2)

theorem Approach.volAt [Nonempty ι] (h : Approach l a T X x) {j : ℕ} (hj : j < (CovPred.live a T x).length) (i : ι) :
    Tendsto (fun y => CovPred.vol a (X y) ((CovPred.live a T (X y)).getD j 0) i) l (nhds (CovPred.vol a x ((CovPred.live a T x).getD j 0) i)) :=
  (h.vol (getD_live hj).1 i).congr' (h.live.mono fun y hy => by dsimp only; rw [hy])

theorem Approach.mean [Nonempty ι] (h : Approach l a T X x) {j : ℕ} (hj : j < (CovPred.live a T x).length) (i : ι) :
    Tendsto (fun y => meanAt a T (X y) j i) l (nhds (meanAt a T x j i)) := by
  unfold meanAt
  split
  · refine Tendsto.add ?_ ((h.volAt hj i).mul (muOf_tendsto (X := fun y => adjAt a T (X y)) fun _ hk => h.adj (hk.trans_lt hj) i))
    have hm : Tendsto (fun y => muOf a.mean a.mu1h (X y) ((CovPred.live a T x).getD j 0) i) l
        (nhds (muOf a.mean a.mu1h x ((CovPred.live a T x).getD j 0) i)) :=
      muOf_tendsto fun k hk => h.tends k (hk.trans_lt (getD_live hj).1) i
    exact hm.congr' (h.live.mono fun y hy => by dsimp only; rw [hy])
  · exact tendsto_const_nhds

/-- the covariance, for assets with a non-zero adjusted return -/
theorem Approach.sigma [Nonempty ι] (h : Approach l a T X x) {j : ℕ} (hj : j < (CovPred.live a T x).length) (p : ι × ι)
    (h1 : covAt a T x j (p.1, p.1) ≠ 0) (h2 : covAt a T x j (p.2, p.2) ≠ 0) :
    ∃ (g : Y → ℝ) (v : ℝ), sigmaAt a T x j p = XR.fin v ∧ (∀ᶠ y in l, sigmaAt a T (X y) j p = XR.fin (g y)) ∧ Tendsto g l (nhds v) := by
  have hpos : ∀ i, 0 ≤ covAt a T x j (i, i) := fun i => by
    unfold covAt
    rw [halflifeAverage_eq]
    exact emaAvg_nonneg (betaOf_pos _) fun k _ => mul_self_nonneg _
  have p1 : 0 < covAt a T x j (p.1, p.1) := lt_of_le_of_ne (hpos _) h1.symm
  have p2 : 0 < covAt a T x j (p.2, p.2) := lt_of_le_of_ne (hpos _) h2.symm
  have e1 := (h.cov hj (p.1, p.1)).eventually (lt_mem_nhds p1)
  have e2 := (h.cov hj (p.2, p.2)).eventually (lt_mem_nhds p2)
  refine ⟨_, _, if_neg (by rw [not_or]; exact ⟨h1, h2⟩), (e1.and e2).mono fun y hy => if_neg (by rw [not_or]; exact ⟨hy.1.ne', hy.2.ne'⟩), ?_⟩
  refine ((h.volAt hj p.1).mul (h.volAt hj p.2)).mul ((h.cov hj p).div ?_ (mul_pos (Real.sqrt_pos.2 p1) (Real.sqrt_pos.2 p2)).ne')
  exact ((Real.continuous_sqrt.tendsto _).comp (h.cov hj (p.1, p.1))).mul ((Real.continuous_sqrt.tendsto _).comp (h.cov hj (p.2, p.2)))

end
end CovPred
