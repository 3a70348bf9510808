import Verif.Model.EwmaVec
import Verif.Lemmas.General

/-
The EWMA of the experiments against that of the library.
-/
set_option linter.unusedSectionVars false
namespace CovPred
open XR

variable {τ κ : Type} [DecidableEq τ] [Ix κ]

/-- a number or `nan`, no infinity -/
def NF (x : XR) : Prop := (∃ r, x = fin r) ∨ x = nan

private theorem nf_clip {x lo hi : XR} (hx : NF x) (hl : NF lo) (hh : NF hi) : NF (Scalar.npClip x lo hi) := by
  unfold Scalar.npClip Scalar.minimum Scalar.maximum
  split_ifs <;> assumption

private theorem nf_mul_fin {c : ℝ} {x : XR} (hx : NF x) : NF (fin c * x) := by
  rcases hx with ⟨r, rfl⟩ | rfl
  · exact Or.inl ⟨_, fin_mul _ _⟩
  · right; simp

/-- the two forms of the update agree -/
private theorem update_eq {b : ℝ} (h0 : 0 < b) (h1 : b < 1) (n : ℕ) {e y : XR} (he : NF e) (hy : NF y) :
    (fin b - Scalar.npow (fin b) (n + 1)) / (1 - Scalar.npow (fin b) (n + 1)) * e
        + (1 - fin b) / (1 - Scalar.npow (fin b) (n + 1)) * y
      = e + (1 - fin b) * (y - e) / (1 - Scalar.npow (fin b) (n + 1)) ∧
    NF (e + (1 - fin b) * (y - e) / (1 - Scalar.npow (fin b) (n + 1))) := by
  have hp := (one_sub_pow_pos h0 h1 n).ne'
  rcases he with ⟨e, rfl⟩ | rfl
  · rcases hy with ⟨y, rfl⟩ | rfl
    · rw [fin_npow, one_def]
      simp only [fin_sub, fin_mul, fin_div hp, fin_add]
      refine ⟨?_, Or.inl ⟨_, rfl⟩⟩
      rw [fin_inj]
      field_simp
      ring
    · simp [NF]
  · simp [NF]

/-- the recursion of the library, without the mask -/
private theorem nextEwma_eq {h : ℝ} (hh : 0 < h) (clipAt : Option XR) (hc : ∀ c, clipAt = some c → ∃ r, c = fin r)
    (m : Option Int) (hm : Scalar.truthy clipAt = none ∨ ∃ k, m = some k ∧ k ≠ 0) (n : ℕ) {e y : Arr κ XR}
    (he : ∀ i, NF (e i)) (hy : ∀ i, NF (y i)) :
    nextEwma e y (n + 1) (fin (betaOf h)) clipAt m
      = .ok (ewmaUpdate (fin (betaOf h)) (m.getD 0) clipAt n e y) ∧
    ∀ i, NF ((ewmaUpdate (fin (betaOf h)) (m.getD 0) clipAt n e y) i) := by
  have h0 := betaOf_pos h
  have h1 := betaOf_lt_one hh
  unfold nextEwma ewmaUpdate
  dsimp only
  cases ht : Scalar.truthy clipAt with
  | none =>
    dsimp only
    constructor
    · congr 1
      ext i
      simp only [Arr.get_ofFn]
      exact (update_eq h0 h1 n (he i) (hy i)).1
    · intro i
      simp only [Arr.get_ofFn]
      exact (update_eq h0 h1 n (he i) (hy i)).2
  | some c =>
    rcases hm with hm | ⟨k, rfl, hk⟩
    · rw [ht] at hm; cases hm
    · simp only [if_neg hk, Option.getD_some]
      have hcf : ∃ r, c = fin r := by
        cases clipAt with
        | none => cases ht
        | some c' =>
          simp only [Scalar.truthy] at ht
          split at ht
          · cases ht
          · cases ht; exact hc _ rfl
      obtain ⟨c, rfl⟩ := hcf
      have hclip : ∀ i, NF (Scalar.npClip (y i) (-fin c * e i) (fin c * e i)) := fun i =>
        nf_clip (hy i) (by rw [fin_neg]; exact nf_mul_fin (he i)) (nf_mul_fin (he i))
      by_cases hn : (n : Int) ≥ k + 1
      · rw [if_pos (by push_cast; omega), if_pos hn]
        constructor
        · congr 1
          ext i
          simp only [Arr.get_ofFn]
          exact (update_eq h0 h1 n (he i) (hclip i)).1
        · intro i
          simp only [Arr.get_ofFn]
          exact (update_eq h0 h1 n (he i) (hclip i)).2
      · rw [if_neg (by push_cast; omega), if_neg hn]
        constructor
        · congr 1
          ext i
          simp only [Arr.get_ofFn]
          exact (update_eq h0 h1 n (he i) (hy i)).1
        · intro i
          simp only [Arr.get_ofFn]
          exact (update_eq h0 h1 n (he i) (hy i)).2

/-- the items of the library: a row before `minPeriods` observations is all `nan` -/
def warmupNaN (minPeriods : Int) (k : ℕ) (p : τ × Arr κ XR) : τ × Arr κ XR :=
  (p.1, if (k : Int) < minPeriods - 1 then Arr.ofFn fun _ => XR.nan else p.2)

private theorem mask_eq (m : Int) (k : ℕ) (a : Arr κ XR) :
    maskWarmup m k a = if (k : Int) < m - 1 then Arr.ofFn fun _ => XR.nan else a := by
  unfold maskWarmup
  split
  · ext i; simp [nan_def]
  · rfl

private theorem loop_eq {h : ℝ} (hh : 0 < h) (clipAt : Option XR) (hc : ∀ c, clipAt = some c → ∃ r, c = fin r)
    (m : Option Int) (hm : Scalar.truthy clipAt = none ∨ ∃ k, m = some k ∧ k ≠ 0) (rest : Frame τ κ XR) :
    ∀ (n : ℕ) (e : Arr κ XR), (∀ i, NF (e i)) → (∀ p ∈ rest, ∀ i, NF (p.2 i)) →
    (ewmaDictLoop (fin (betaOf h)) clipAt m n e rest).2 = none ∧
    generalLoop (fin (betaOf h)) (fun x => x) (m.getD 0) clipAt n e rest
      = (ewmaDictLoop (fin (betaOf h)) clipAt m n e rest).1.mapIdx
          fun k p => warmupNaN (m.getD 0) (n + k) p := by
  induction rest with
  | nil => intro n e _ _; exact ⟨rfl, rfl⟩
  | cons p rest ih =>
    obtain ⟨t, y⟩ := p
    intro n e he hr
    have hy : ∀ i, NF (y i) := hr (t, y) List.mem_cons_self
    obtain ⟨h1, h2⟩ := nextEwma_eq hh clipAt hc m hm n he hy
    obtain ⟨i1, i2⟩ := ih (n + 1) _ h2 fun p hp => hr p (List.mem_cons_of_mem _ hp)
    rw [ewmaDictLoop, h1]
    refine ⟨i1, ?_⟩
    rw [generalLoop]
    dsimp only
    rw [List.mapIdx_cons, i2]
    congr 1
    · rw [mask_eq]; rfl
    · congr 1
      funext k p
      congr 1
      omega

/-- **C50.** On data without infinities the dictionary `ewma` of the experiments never fails (with `min_periods` given
and non-zero if `clip_at` is) and yields, from the second key on, the values of the library's EWMA; the library replaces
those before `min_periods` observations by `nan`, the experiments keep them. -/
theorem C50_agrees (f : Frame τ κ XR) (hf : f ≠ []) (hnf : ∀ p ∈ f, ∀ i, NF (p.2 i)) {h : ℝ} (hh : 0 < h)
    (clipAt : Option XR) (hc : ∀ c, clipAt = some c → ∃ r, c = fin r) (m : Option Int)
    (hm : clipAt = none ∨ clipAt = some (fin 0) ∨ ∃ k, m = some k ∧ k ≠ 0) :
    ∃ g, general f (some (fin h)) none (fun x => x) (m.getD 0) clipAt = .ok g ∧
      (ewmaDict f (fin h) clipAt m).2 = none ∧
      g.tail = (ewmaDict f (fin h) clipAt m).1.mapIdx fun k p => warmupNaN (m.getD 0) (k + 1) p := by
  cases f with
  | nil => exact absurd rfl hf
  | cons p rest =>
    obtain ⟨t, first⟩ := p
    have hb := decay_fin hh.ne' (none : Option XR)
    have hbeta : (Scalar.exp (-(Scalar.log (Scalar.lit 2)) / (fin h)) : XR) = fin (betaOf h) := by
      rw [lit_def, fin_log (by norm_num), fin_neg, fin_div hh.ne', fin_exp]
      rfl
    have hm' : Scalar.truthy clipAt = none ∨ ∃ k, m = some k ∧ k ≠ 0 := by
      rcases hm with rfl | rfl | h
      · exact Or.inl rfl
      · left
        simp only [Scalar.truthy]
        rw [if_pos ((isZero_fin 0).2 rfl)]
      · exact Or.inr h
    obtain ⟨l1, l2⟩ := loop_eq hh clipAt hc m hm' rest 1 first (hnf _ List.mem_cons_self)
      fun p hp => hnf p (List.mem_cons_of_mem _ hp)
    refine ⟨_, by unfold general; rw [hb], ?_, ?_⟩
    · unfold ewmaDict; dsimp only; rw [hbeta]; exact l1
    · unfold ewmaDict; dsimp only; rw [hbeta, List.tail_cons, l2]
      congr 1
      funext k p
      rw [Nat.add_comm]

private theorem loop_keys (beta : XR) (clipAt : Option XR) (m : Option Int) (rest : Frame τ κ XR) :
    ∀ (n : ℕ) (e : Arr κ XR), (ewmaDictLoop beta clipAt m n e rest).2 = none →
      (ewmaDictLoop beta clipAt m n e rest).1.map Prod.fst = rest.map Prod.fst := by
  induction rest with
  | nil => intro n e _; rfl
  | cons p rest ih =>
    obtain ⟨t, y⟩ := p
    intro n e h
    rw [ewmaDictLoop] at h ⊢
    cases hx : nextEwma e y (n + 1) beta clipAt m with
    | error _ => rw [hx] at h; cases h
    | ok e' =>
      rw [hx] at h
      simp only [List.map_cons]
      rw [ih (n + 1) e' h]

/-- **C50.** The first key is never yielded; all others are, in order, unless an exception is raised. -/
theorem C50_keys (f : Frame τ κ XR) (h : XR) (clipAt : Option XR) (m : Option Int)
    (hok : (ewmaDict f h clipAt m).2 = none) :
    (ewmaDict f h clipAt m).1.map Prod.fst = (f.map Prod.fst).tail := by
  cases f with
  | nil => rfl
  | cons p rest =>
    obtain ⟨t, first⟩ := p
    unfold ewmaDict at hok ⊢
    dsimp only at hok ⊢
    rw [loop_keys _ _ _ _ _ _ hok]
    rfl

/-- **C50.** Clipping without `min_periods` (or with `min_periods = 0`, which the library accepts) fails at the second
key, before anything is yielded; an empty dictionary raises `IndexError`. -/
theorem C50_errors (f : Frame τ κ XR) (hf : 2 ≤ f.length) (h : XR) {c : XR} (hc : c ≠ fin 0) {m : Option Int}
    (hm : m = none ∨ m = some 0) (clipAt : Option XR) (m' : Option Int) :
    ewmaDict f h (some c) m = ([], some .assertionError) ∧
      ewmaDict ([] : Frame τ κ XR) h clipAt m' = ([], some .indexError) := by
  refine ⟨?_, rfl⟩
  match f, hf with
  | (t, first) :: (t', y) :: rest, _ =>
    unfold ewmaDict
    dsimp only
    rw [ewmaDictLoop]
    have ht : Scalar.truthy (some c) = some c := by
      simp only [Scalar.truthy]
      rw [if_neg]
      rw [isZero_iff]; exact hc
    have : ∀ beta, nextEwma first y (1 + 1) beta (some c) m = .error .assertionError := by
      intro beta
      unfold nextEwma
      dsimp only
      rw [ht]
      rcases hm with rfl | rfl
      · rfl
      · rfl
    rw [this]

/-- The hypotheses are met: three rows, one missing value, clipping. -/
example : ∃ g, general [(0, (Arr.ofFn fun _ => fin 1 : Arr (Fin 1) XR)), (1, Arr.ofFn fun _ => nan), (2, Arr.ofFn fun _ => fin 3)]
      (some (fin 2)) none (fun x => x) 1 (some (fin 4)) = .ok g ∧
    (ewmaDict [(0, (Arr.ofFn fun _ => fin 1 : Arr (Fin 1) XR)), (1, Arr.ofFn fun _ => nan), (2, Arr.ofFn fun _ => fin 3)]
      (fin 2) (some (fin 4)) (some 1)).2 = none ∧ g.tail = (ewmaDict
        [(0, (Arr.ofFn fun _ => fin 1 : Arr (Fin 1) XR)), (1, Arr.ofFn fun _ => nan), (2, Arr.ofFn fun _ => fin 3)]
      (fin 2) (some (fin 4)) (some 1)).1.mapIdx fun k p => warmupNaN 1 (k + 1) p := by
  apply C50_agrees _ (by simp) _ (by norm_num) _ _ (some 1)
  · exact Or.inr (Or.inr ⟨1, rfl, by norm_num⟩)
  · intro p hp i
    simp only [List.mem_cons, List.not_mem_nil, or_false] at hp
    rcases hp with rfl | rfl | rfl
    · exact Or.inl ⟨1, by simp⟩
    · exact Or.inr (by simp)
    · exact Or.inl ⟨3, by simp⟩
  · intro c h; cases h; exact ⟨4, rfl⟩

end CovPred
