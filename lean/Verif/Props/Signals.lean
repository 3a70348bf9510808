import Verif.Model.Signals
import Verif.Spec.Signals
import Verif.Lemmas.Combination
import Mathlib.Data.Fintype.Card
import Mathlib.Data.List.FinRange

/-
Properties of `get_sign_prediction` (C149).
-/
set_option linter.unusedSectionVars false
namespace CovPred

variable {τ : Type} {n : ℕ}

private theorem argsort_length {argsort : Argsort} (h : argsort.Correct) (x : Vec n) : (argsort n x).length = n := by
  have h1 : (argsort n x).toFinset = Finset.univ := by
    ext i; simp [h.mem n x i]
  rw [← List.toFinset_card_of_nodup (h.nodup n x), h1, Finset.card_univ, Fintype.card_fin]

/-- the first and the last part of the sorted positions -/
private theorem argsort_split {argsort : Argsort} (h : argsort.Correct) (x : Vec n) (k : ℕ) (hk : k ≤ n) :
    ((argsort n x).take k).toFinset.card = k ∧ ((argsort n x).drop k).toFinset.card = n - k ∧
    (∀ i, i ∈ (argsort n x).drop k ↔ i ∉ (argsort n x).take k) ∧
    ∀ i j, i ∈ (argsort n x).take k → j ∉ (argsort n x).take k → x i ≤ x j := by
  have hl := argsort_length h x
  have hd := h.nodup n x
  have hs := h.sorted n x
  have hm := h.mem n x
  have hsplit : ∀ i, i ∈ (argsort n x).take k ∨ i ∈ (argsort n x).drop k := fun i => by
    rw [← List.mem_append, List.take_append_drop]; exact hm i
  rw [← List.take_append_drop k (argsort n x), List.nodup_append] at hd
  rw [← List.take_append_drop k (argsort n x), List.pairwise_append] at hs
  have hiff : ∀ i, i ∈ (argsort n x).drop k ↔ i ∉ (argsort n x).take k := fun i =>
    ⟨fun h1 h2 => hd.2.2 i h2 i h1 rfl, fun h1 => (hsplit i).resolve_left h1⟩
  refine ⟨?_, ?_, hiff, ?_⟩
  · rw [List.toFinset_card_of_nodup hd.1, List.length_take, hl]; omega
  · rw [List.toFinset_card_of_nodup hd.2.1, List.length_drop, hl]
  · intro i j hi hj
    exact hs.2.2 i hi j ((hiff j).2 hj)

/-- the row after the first assignment -/
private noncomputable def firstStep (ten : List (Fin n)) (x : Vec n) : Vec n := by
  classical
  exact fun i => if i ∈ ten then (if x i > 0 then 1 else 0) else x i

open Classical in
private theorem signRow_ok (argsort : Argsort) (p : τ × Vec n) (hn : 10 ≤ n) :
    signRow argsort p = .ok (p.1, fun i =>
      if |(if i ∈ (argsort n (firstStep ((argsort n p.2).drop (n - 10)) p.2)).take 10 then
          (if firstStep ((argsort n p.2).drop (n - 10)) p.2 i < 0 then (-1 : ℝ) else 0)
          else firstStep ((argsort n p.2).drop (n - 10)) p.2 i)| ≠ 1 then 0 else
        (if i ∈ (argsort n (firstStep ((argsort n p.2).drop (n - 10)) p.2)).take 10 then
          (if firstStep ((argsort n p.2).drop (n - 10)) p.2 i < 0 then (-1 : ℝ) else 0)
          else firstStep ((argsort n p.2).drop (n - 10)) p.2 i)) := by
  unfold signRow
  rw [if_neg (by omega)]
  rfl

open Classical in
private theorem signs (ten small : Finset (Fin n)) (x r1 : Vec n) (h20 : 20 ≤ n)
    (hx : ∀ i, x i < 1 ∧ x i ≠ -1) (ht : ten.card = 10) (hs : small.card = 10)
    (hten : ∀ i ∈ ten, ∀ j, j ∉ ten → x j ≤ x i) (hr1 : ∀ i, r1 i = if i ∈ ten then (if x i > 0 then 1 else 0) else x i)
    (hsmall : ∀ i ∈ small, ∀ j, j ∉ small → r1 i ≤ r1 j) :
    ∃ S S' : Finset (Fin n), TenLargestPositive x S ∧ TenLargestPositive (fun i => -x i) S' ∧
      ∀ i, (i ∈ S → (if |(if i ∈ small then (if r1 i < 0 then (-1 : ℝ) else 0) else r1 i)| ≠ 1 then 0 else
        (if i ∈ small then (if r1 i < 0 then (-1 : ℝ) else 0) else r1 i)) = 1) ∧
      (i ∈ S' → (if |(if i ∈ small then (if r1 i < 0 then (-1 : ℝ) else 0) else r1 i)| ≠ 1 then 0 else
        (if i ∈ small then (if r1 i < 0 then (-1 : ℝ) else 0) else r1 i)) = -1) ∧
      (i ∉ S → i ∉ S' → (if |(if i ∈ small then (if r1 i < 0 then (-1 : ℝ) else 0) else r1 i)| ≠ 1 then 0 else
        (if i ∈ small then (if r1 i < 0 then (-1 : ℝ) else 0) else r1 i)) = 0) := by
  have hin : ∀ i ∈ ten, r1 i = if x i > 0 then 1 else 0 := fun i hi => by rw [hr1, if_pos hi]
  have hout : ∀ i, i ∉ ten → r1 i = x i := fun i hi => by rw [hr1, if_neg hi]
  have hin0 : ∀ i ∈ ten, 0 ≤ r1 i := fun i hi => by rw [hin i hi]; split_ifs <;> norm_num
  have hcompl : (tenᶜ : Finset (Fin n)).card = n - 10 := by rw [Finset.card_compl, Fintype.card_fin, ht]
  -- if all positions outside `ten` lie in `small`, nothing else does
  have hfull : (∀ i, i ∉ ten → i ∈ small) → ∀ i ∈ small, i ∉ ten := by
    intro h i hi hc
    have hsub : insert i tenᶜ ⊆ small := by
      intro j hj
      rcases Finset.mem_insert.1 hj with rfl | hj
      · exact hi
      · exact h j (Finset.mem_compl.1 hj)
    have := Finset.card_le_card hsub
    rw [Finset.card_insert_of_notMem (by simpa using hc), hcompl, hs] at this
    omega
  refine ⟨ten.filter fun i => 0 < x i, small.filter fun i => r1 i < 0, ⟨?_, ?_, ?_, ?_⟩, ⟨?_, ?_, ?_, ?_⟩, ?_⟩
  · rw [← ht]; exact Finset.card_filter_le _ _
  · intro i hi; exact (Finset.mem_filter.1 hi).2
  · intro i hi j hj
    rw [Finset.mem_filter] at hi hj
    by_cases hjt : j ∈ ten
    · have : ¬ 0 < x j := fun h => hj ⟨hjt, h⟩
      linarith [hi.2]
    · exact hten i hi.1 j hjt
  · intro hc j hj
    rw [Finset.mem_filter]
    refine ⟨?_, hj⟩
    by_contra hjt
    obtain ⟨i, hi, hi'⟩ : ∃ i ∈ ten, ¬ 0 < x i := by
      by_contra hall
      push Not at hall
      have : ten.filter (fun i => 0 < x i) = ten := Finset.filter_true_of_mem hall
      rw [this, ht] at hc
      omega
    linarith [hten i hi j hjt]
  · rw [← hs]; exact Finset.card_filter_le _ _
  · intro i hi
    rw [Finset.mem_filter] at hi
    have hit : i ∉ ten := fun h => absurd hi.2 (not_lt.2 (hin0 i h))
    have := hi.2
    rw [hout i hit] at this
    simpa using this
  · intro i hi j hj
    rw [Finset.mem_filter] at hi hj
    have hit : i ∉ ten := fun h => absurd hi.2 (not_lt.2 (hin0 i h))
    have h2 := hi.2
    rw [hout i hit] at h2
    rw [neg_le_neg_iff]
    by_cases hjt : j ∈ ten
    · exact hten j hjt i hit
    · by_cases hjs : j ∈ small
      · have : ¬ r1 j < 0 := fun h => hj ⟨hjs, h⟩
        rw [hout j hjt] at this
        linarith
      · have := hsmall i hi.1 j hjs
        rwa [hout i hit, hout j hjt] at this
  · intro hc j hj
    have hj : x j < 0 := by simpa using hj
    obtain ⟨i, hi, hi'⟩ : ∃ i ∈ small, ¬ r1 i < 0 := by
      by_contra hall
      push Not at hall
      have : small.filter (fun i => r1 i < 0) = small := Finset.filter_true_of_mem hall
      rw [this, hs] at hc
      omega
    have hneg : ∀ k, k ∉ ten → x k < 0 → k ∈ small := by
      intro k hk hk0
      by_contra hks
      have := hsmall i hi k hks
      rw [hout k hk] at this
      linarith
    by_cases hjt : j ∈ ten
    · exfalso
      have hall : ∀ k, k ∉ ten → k ∈ small := fun k hk => hneg k hk (lt_of_le_of_lt (hten j hjt k hk) hj)
      have hit := hfull hall i hi
      rw [hout i hit] at hi'
      exact hi' (lt_of_le_of_lt (hten j hjt i hit) hj)
    · rw [Finset.mem_filter]
      refine ⟨hneg j hjt hj, ?_⟩
      rw [hout j hjt]
      exact hj
  · intro i
    refine ⟨fun hi => ?_, fun hi => ?_, fun hi hi' => ?_⟩
    · rw [Finset.mem_filter] at hi
      have e1 : r1 i = 1 := by rw [hin i hi.1, if_pos hi.2]
      have his : i ∉ small := by
        intro hc
        refine hfull (fun k hk => ?_) i hc hi.1
        by_contra hks
        have := hsmall i hc k hks
        rw [e1, hout k hk] at this
        linarith [(hx k).1]
      rw [if_neg his, e1]
      norm_num
    · rw [Finset.mem_filter] at hi
      rw [if_pos hi.1, if_pos hi.2]
      norm_num
    · rw [Finset.mem_filter] at hi hi'
      by_cases his : i ∈ small
      · rw [if_pos his, if_neg fun h => hi' ⟨his, h⟩]
        norm_num
      · rw [if_neg his]
        by_cases hit : i ∈ ten
        · rw [hin i hit, if_neg fun h => hi ⟨hit, h⟩]
          norm_num
        · rw [hout i hit, if_pos]
          intro h
          rcases (abs_eq (by norm_num)).1 h with h | h
          · linarith [(hx i).1]
          · exact (hx i).2 h

/-- **C149.** With at least twenty columns, and rows whose entries are smaller than 1 and not -1, every row is turned into
ones for its ten largest positive entries (all of them if there are fewer), minus ones for its ten smallest negative ones,
and zeros elsewhere, however `np.argsort` orders equal values. -/
theorem C149_sign_prediction {argsort : Argsort} (ha : argsort.Correct) (preds : List (τ × Vec n)) (hn : 20 ≤ n)
    (hx : ∀ p ∈ preds, ∀ i, p.2 i < 1 ∧ p.2 i ≠ -1) :
    ∃ out, getSignPrediction argsort preds = .ok out ∧ List.Forall₂ (fun p q => q.1 = p.1 ∧
      ∃ longs shorts, TenLargestPositive p.2 longs ∧ TenLargestPositive (fun i => -p.2 i) shorts ∧
        ∀ i, (i ∈ longs → q.2 i = 1) ∧ (i ∈ shorts → q.2 i = -1) ∧ (i ∉ longs → i ∉ shorts → q.2 i = 0)) preds out := by
  classical
  refine ⟨_, mapM_ok_of _ _ _ fun p _ => signRow_ok argsort p (by omega), ?_⟩
  rw [List.forall₂_map_right_iff, List.forall₂_same]
  intro p hp
  refine ⟨rfl, ?_⟩
  obtain ⟨_, t2, t3, t4⟩ := argsort_split ha p.2 (n - 10) (by omega)
  obtain ⟨s1, _, _, s4⟩ := argsort_split ha (firstStep ((argsort n p.2).drop (n - 10)) p.2) 10 (by omega)
  have := signs ((argsort n p.2).drop (n - 10)).toFinset
    ((argsort n (firstStep ((argsort n p.2).drop (n - 10)) p.2)).take 10).toFinset p.2
    (firstStep ((argsort n p.2).drop (n - 10)) p.2) hn (hx p hp) (by rw [t2]; omega) s1
    (fun i hi j hj => by
      rw [List.mem_toFinset] at hi hj
      refine t4 j i ?_ ((t3 i).1 hi)
      by_contra hc
      exact hj ((t3 j).2 hc))
    (fun i => by
      unfold firstStep
      simp only [List.mem_toFinset])
    (fun i hi j hj => by
      rw [List.mem_toFinset] at hi hj
      exact s4 i j hi hj)
  simpa only [List.mem_toFinset] using this

/-- **C149.** In any case the entries of the result are -1, 0 and 1. With fewer than ten columns the call is rejected,
with exactly ten the result is zero, and so it is with twenty or more columns where all predictions of a row exceed 1
(predictions in percent, say). -/
theorem C149_limits {argsort : Argsort} (ha : argsort.Correct) (preds : List (τ × Vec n)) :
    (n < 10 → preds ≠ [] → getSignPrediction argsort preds = .error .valueError) ∧
    (10 ≤ n → ∃ out, getSignPrediction argsort preds = .ok out ∧
      List.Forall₂ (fun p q => q.1 = p.1 ∧ (∀ i, q.2 i = -1 ∨ q.2 i = 0 ∨ q.2 i = 1) ∧
        (n = 10 → q.2 = 0) ∧ (20 ≤ n → (∀ i, 1 < p.2 i) → q.2 = 0)) preds out) := by
  classical
  constructor
  · intro hn hne
    obtain ⟨p, l, rfl⟩ := List.exists_cons_of_ne_nil hne
    unfold getSignPrediction
    have : signRow argsort p = .error .valueError := by unfold signRow; rw [if_pos hn]
    rw [List.mapM_cons, this]
    rfl
  · intro hn
    refine ⟨_, mapM_ok_of _ _ _ fun p _ => signRow_ok argsort p (by omega), ?_⟩
    rw [List.forall₂_map_right_iff, List.forall₂_same]
    intro p hp
    obtain ⟨_, t2, t3, t4⟩ := argsort_split ha p.2 (n - 10) (by omega)
    set r1 := firstStep ((argsort n p.2).drop (n - 10)) p.2 with hr1
    obtain ⟨s1, _, _, s4⟩ := argsort_split ha r1 10 (by omega)
    refine ⟨rfl, fun i => ?_, fun h10 => ?_, fun h20 hbig => ?_⟩
    · dsimp only
      generalize (if i ∈ (argsort n r1).take 10 then (if r1 i < 0 then (-1 : ℝ) else 0) else r1 i) = v
      split_ifs with h
      · simp
      · rw [not_not] at h
        rcases (abs_eq (by norm_num)).1 h with h | h
        · exact Or.inr (Or.inr h)
        · exact Or.inl h
    · funext i
      dsimp only
      have e1 : i ∈ (argsort n r1).take 10 := by
        rw [List.take_of_length_le (by rw [argsort_length ha]; omega)]
        exact ha.mem n r1 i
      have e2 : i ∈ (argsort n p.2).drop (n - 10) := by
        rw [show n - 10 = 0 by omega, List.drop_zero]
        exact ha.mem n p.2 i
      have e3 : ¬ r1 i < 0 := by
        rw [hr1]
        unfold firstStep
        rw [if_pos e2]
        split_ifs <;> norm_num
      rw [if_pos e1, if_neg e3]
      norm_num
    · have hin : ∀ i, i ∈ (argsort n p.2).drop (n - 10) → r1 i = 1 := by
        intro i hi
        rw [hr1]
        unfold firstStep
        rw [if_pos hi, if_pos (by linarith [hbig i])]
      have hout : ∀ i, i ∉ (argsort n p.2).drop (n - 10) → r1 i = p.2 i := by
        intro i hi
        rw [hr1]
        unfold firstStep
        rw [if_neg hi]
      have hten : ∀ i, i ∈ (argsort n p.2).drop (n - 10) → i ∈ (argsort n r1).take 10 := by
        intro i hi
        by_contra hc
        -- everything in the ten smallest is at most `r1 i = 1`, so it is one of the ten largest; there are ten of each
        have hsub : ((argsort n r1).take 10).toFinset ⊆ ((argsort n p.2).drop (n - 10)).toFinset.erase i := by
          intro j hj
          rw [List.mem_toFinset] at hj
          rw [Finset.mem_erase, List.mem_toFinset]
          refine ⟨fun h => hc (h ▸ hj), ?_⟩
          by_contra hj'
          have := s4 j i hj hc
          rw [hin i hi, hout j hj'] at this
          linarith [hbig j]
        have := Finset.card_le_card hsub
        rw [Finset.card_erase_of_mem (by rwa [List.mem_toFinset]), s1, t2] at this
        omega
      funext i
      dsimp only
      by_cases hi : i ∈ (argsort n p.2).drop (n - 10)
      · have e0 : ¬ r1 i < 0 := by rw [hin i hi]; norm_num
        rw [if_pos (hten i hi), if_neg e0]
        norm_num
      · have e0 : ¬ r1 i < 0 := by rw [hout i hi]; linarith [hbig i]
        have e1 : |(if i ∈ (argsort n r1).take 10 then (if r1 i < 0 then (-1 : ℝ) else 0) else r1 i)| ≠ 1 := by
          split_ifs
          · norm_num
          · rw [hout i hi]
            intro h
            rw [abs_of_pos (by linarith [hbig i])] at h
            linarith [hbig i]
        rw [if_pos e1]
        rfl

/-! ### An example -/

namespace SignEx

/-- sorting the positions by their values -/
noncomputable def byValue : Argsort := fun n x =>
  (List.finRange n).mergeSort fun i j => decide (x i ≤ x j)

theorem byValue_correct : byValue.Correct := by
  refine ⟨fun n x => ?_, fun n x i => ?_, fun n x => ?_⟩
  · exact (List.mergeSort_perm _ _).nodup_iff.2 (List.nodup_finRange n)
  · exact (List.mergeSort_perm _ _).mem_iff.2 (List.mem_finRange i)
  · have := List.pairwise_mergeSort (le := fun i j : Fin n => decide (x i ≤ x j))
      (fun a b c h1 h2 => by simp only [decide_eq_true_eq] at *; exact h1.trans h2)
      (fun a b => by simp only [Bool.or_eq_true, decide_eq_true_eq]; exact le_total _ _) (List.finRange n)
    exact this.imp fun h => by simpa using h

/-- 24 assets, 3 with a positive and 21 with a negative prediction: three longs and ten shorts. -/
example : ∃ o : Vec 24, getSignPrediction byValue [((0 : ℕ), fun i : Fin 24 => if i.1 < 3 then (1 / 2 : ℝ) else -1 / 4)] = .ok [(0, o)] ∧
    (∀ i : Fin 24, i.1 < 3 → o i = 1) ∧ ∃ S : Finset (Fin 24), S.card = 10 ∧ ∀ i ∈ S, o i = -1 := by
  obtain ⟨out, h, hf⟩ := C149_sign_prediction byValue_correct
    [((0 : ℕ), fun i : Fin 24 => if i.1 < 3 then (1 / 2 : ℝ) else -1 / 4)] (by norm_num) (by
      intro p hp i
      rw [List.mem_singleton] at hp
      subst hp
      dsimp only
      split_ifs <;> norm_num)
  cases hf with
  | cons hp hr =>
    cases hr
    rename_i q
    obtain ⟨h1, L, S, hL, hS, hq⟩ := hp
    refine ⟨q.2, ?_, fun i hi => (hq i).1 ?_, S, ?_, fun i hi => (hq i).2.1 hi⟩
    · rw [h]
      obtain ⟨a, b⟩ := q
      cases h1
      rfl
    · refine hL.all ?_ i (by dsimp only; rw [if_pos hi]; norm_num)
      have hsub : L ⊆ Finset.univ.filter fun i : Fin 24 => i.1 < 3 := by
        intro j hj
        rw [Finset.mem_filter]
        refine ⟨Finset.mem_univ _, ?_⟩
        by_contra hc
        have := hL.positive j hj
        dsimp only at this
        rw [if_neg hc] at this
        norm_num at this
      exact lt_of_le_of_lt (Finset.card_le_card hsub) (by decide)
    · by_contra hc
      have hlt : S.card < 10 := lt_of_le_of_ne hS.card hc
      have hsub : (Finset.univ.filter fun i : Fin 24 => ¬ i.1 < 3) ⊆ S := by
        intro j hj
        rw [Finset.mem_filter] at hj
        refine hS.all hlt j ?_
        dsimp only
        rw [if_neg hj.2]
        norm_num
      have := Finset.card_le_card hsub
      have e : (Finset.univ.filter fun i : Fin 24 => ¬ i.1 < 3).card = 21 := by decide
      omega

end SignEx

end CovPred
