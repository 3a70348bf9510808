import Verif.Lemmas.FactorModel3

/-
All blocks of the factor model.
-/
set_option linter.unusedSectionVars false
namespace CovPred
open Matrix XR

variable {τ : Type} [LinearOrder τ] {n k : ℕ} {L : Type} [DecidableEq L]

theorem genBlocks_range {A B : Type} (f : A → List B × Option Err) (g : ℕ → A) (its : ℕ → List B) (Ok : ℕ → Prop) (m a : ℕ)
    (h : ∀ j, a ≤ j → j < a + m → (Ok j ∧ f (g j) = (its j, none)) ∨ (¬ Ok j ∧ ∃ e, f (g j) = ([], some e))) :
    ∃ c ≤ m, ∃ err, genBlocks f ((List.range' a m).map g) = ((List.range' a c).flatMap its, err) ∧
      (∀ j, a ≤ j → j < a + c → Ok j) ∧ ((err = none ∧ c = m) ∨ (c < m ∧ ¬ Ok (a + c) ∧ ∃ e, err = some e)) := by
  induction m generalizing a with
  | zero => exact ⟨0, le_rfl, none, rfl, by intro j h1 h2; omega, Or.inl ⟨rfl, rfl⟩⟩
  | succ m ih =>
    rw [List.range'_succ, List.map_cons]
    rcases h a le_rfl (by omega) with ⟨hok, he⟩ | ⟨hno, e, he⟩
    · obtain ⟨c, hc, err, h1, h2, h3⟩ := ih (a + 1) fun j hj1 hj2 => h j (by omega) (by omega)
      refine ⟨c + 1, by omega, err, ?_, ?_, ?_⟩
      · simp only [genBlocks, he]
        rw [h1, List.range'_succ, List.flatMap_cons]
      · intro j hj1 hj2
        rcases Nat.eq_or_lt_of_le hj1 with rfl | hlt
        · exact hok
        · exact h2 j hlt (by omega)
      · rcases h3 with ⟨h3, h4⟩ | ⟨h3, h4, h5⟩
        · exact Or.inl ⟨h3, by omega⟩
        · exact Or.inr ⟨by omega, by rwa [show a + (c + 1) = a + 1 + c by omega], h5⟩
    · refine ⟨0, by omega, some e, ?_, by intro j h1 h2; omega, Or.inr ⟨by omega, hno, e, rfl⟩⟩
      simp only [genBlocks, he]
      rfl

open Classical in
/-- the exposures of the block that starts at row `t` (0 if `pca` fails) -/
noncomputable def exposureAt (pca : Pca n k) (memory : ℕ) (x : ℕ → Vec n) (t : ℕ) : Matrix (Fin k) (Fin n) ℝ :=
  match pca (trainingRows memory x t) with
  | .ok E => E
  | .error _ => 0

/-- the block that starts at row `t` succeeds -/
structure BlockOk (label : XR × XR → L) (pca : Pca n k) (solvers : Solvers k) (pairs : List (ℝ × ℝ)) (T : ℕ) (tm : ℕ → τ)
    (x : ℕ → Vec n) (freq memory t : ℕ) : Prop where
  exposure : pca (trainingRows memory x t) = .ok (exposureAt pca memory x t)
  finite : FiniteExperts label pairs (factorRet (exposureAt pca memory x t) x) (t - 10) (min (t + freq) T)
  completes : (factorPanel label pairs tm (factorRet (exposureAt pca memory x t) x) (t - 10) (min (t + freq) T)).Completes
    (solvers _) 10

/-- the item of row `s` -/
noncomputable def itemOfRow (label : XR × XR → L) (pca : Pca n k) (solvers : Solvers k) (pairs : List (ℝ × ℝ)) (T : ℕ)
    (tm : ℕ → τ) (x : ℕ → Vec n) (freq memory s : ℕ) : FactorModel τ n k :=
  blockItem label solvers pairs tm x (exposureAt pca memory x (blockOf memory freq s)) (min (blockOf memory freq s + freq) T)
    (blockOf memory freq s) s

theorem blockOf_eq {memory freq j s : ℕ} (hf : 0 < freq) (h1 : memory + j * freq ≤ s) (h2 : s < memory + j * freq + freq) :
    blockOf memory freq s = memory + j * freq := by
  unfold blockOf
  have : (s - memory) / freq = j := by
    apply Nat.div_eq_of_lt_le
    · omega
    · rw [Nat.add_mul]; omega
  rw [this]

theorem blockOf_le {memory freq s : ℕ} (h : memory ≤ s) : blockOf memory freq s ≤ s := by
  unfold blockOf
  have := Nat.div_mul_le_self (s - memory) freq
  omega

theorem lt_blockOf_add {memory freq s : ℕ} (hf : 0 < freq) (h : memory ≤ s) : s < blockOf memory freq s + freq := by
  unfold blockOf
  have := Nat.lt_div_mul_add hf (a := s - memory)
  omega

theorem le_blockOf (memory freq s : ℕ) : memory ≤ blockOf memory freq s := by
  unfold blockOf; omega

theorem start_lt {memory T freq j : ℕ} (hf : 0 < freq) (h : j < (T - memory + freq - 1) / freq) : memory + j * freq < T := by
  have : (j + 1) * freq ≤ T - memory + freq - 1 := (Nat.le_div_iff_mul_le hf).mp h
  rw [Nat.add_mul] at this
  omega

theorem blocks_cover {memory T freq : ℕ} (hf : 0 < freq) :
    T - memory ≤ (T - memory + freq - 1) / freq * freq := by
  have := Nat.lt_div_mul_add hf (a := T - memory + freq - 1)
  omega

theorem flat_rows {B : Type} (g : ℕ → B) {memory T freq : ℕ} (c : ℕ) (hc : ∀ j < c, memory + j * freq < T) :
    (List.range c).flatMap (fun j => (List.range' (memory + j * freq) (min (memory + j * freq + freq) T - (memory + j * freq))).map g)
      = (List.range' memory (min (c * freq) (T - memory))).map g := by
  induction c with
  | zero => simp
  | succ c ih =>
    rw [List.range_succ, List.flatMap_append, ih fun j hj => hc j (by omega)]
    have h1 := hc c (by omega)
    have hmin : min (c * freq) (T - memory) = c * freq := by omega
    rw [hmin]
    simp only [List.flatMap_cons, List.flatMap_nil, List.append_nil]
    rw [← List.map_append, List.range'_append_1, Nat.add_mul]
    congr 2
    omega

/-- The run of the generator. -/
theorem factorModel_run (label : XR × XR → L) {pca : Pca n k} {solvers : Solvers k} {pairs : List (ℝ × ℝ)} {T : ℕ}
    {tm : ℕ → τ} {x : ℕ → Vec n} {freq memory : ℕ} (h : FactorSetup pca solvers pairs T tm x freq memory) :
    ∃ c ≤ (T - memory + freq - 1) / freq, ∃ err,
      constructFactorModel label pca solvers (rowDict T tm x) (pairs.map xr) freq memory
        = ((List.range' memory (min (c * freq) (T - memory))).map
            (itemOfRow label pca solvers pairs T tm x freq memory), err) ∧
      (∀ j < c, BlockOk label pca solvers pairs T tm x freq memory (memory + j * freq)) ∧
      ((err = none ∧ c = (T - memory + freq - 1) / freq) ∨
        (c < (T - memory + freq - 1) / freq ∧
          ¬ BlockOk label pca solvers pairs T tm x freq memory (memory + c * freq) ∧ ∃ e, err = some e)) := by
  unfold constructFactorModel blockStarts
  rw [if_neg h.step.ne', show (rowDict T tm x).length = T by simp [rowDict], List.range_eq_range']
  obtain ⟨c, hc, err, h1, h2, h3⟩ := genBlocks_range
    (factorBlock label pca solvers (rowDict T tm x) (pairs.map xr) freq memory) (fun j => memory + j * freq)
    (fun j => (List.range' (memory + j * freq) (min (memory + j * freq + freq) T - (memory + j * freq))).map
      (itemOfRow label pca solvers pairs T tm x freq memory))
    (fun j => BlockOk label pca solvers pairs T tm x freq memory (memory + j * freq)) ((T - memory + freq - 1) / freq) 0 (by
      intro j _ hj
      have hlt := start_lt (T := T) (memory := memory) h.step (show j < _ by omega)
      rcases factorBlock_spec label h (t := memory + j * freq) (by omega) hlt rfl with ⟨e, he, hno⟩ | ⟨E, hE, hfin, hcomp, he⟩
      · right
        exact ⟨fun hb => hno _ hb.exposure ⟨hb.finite, hb.completes⟩, e, he⟩
      · left
        have hEE : exposureAt pca memory x (memory + j * freq) = E := by unfold exposureAt; rw [hE]
        refine ⟨⟨by rw [hEE]; exact hE, by rw [hEE]; exact hfin, by rw [hEE]; exact hcomp⟩, ?_⟩
        rw [he]
        congr 1
        apply List.map_congr_left
        intro s hs
        rw [List.mem_range'_1] at hs
        unfold itemOfRow
        rw [blockOf_eq h.step (j := j) (by omega) (by omega), hEE])
  refine ⟨c, hc, err, ?_, fun j hj => h2 j (by omega) (by omega), ?_⟩
  · rw [h1, ← List.range_eq_range', flat_rows _ c fun j hj => start_lt h.step (by omega)]
  · rcases h3 with h3 | ⟨h4, h5, h6⟩
    · exact Or.inl h3
    · rw [Nat.zero_add] at h5
      exact Or.inr ⟨h4, h5, h6⟩

end CovPred
