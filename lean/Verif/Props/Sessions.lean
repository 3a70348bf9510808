import Verif.Spec.Sessions
import Verif.Lemmas.Combination
import Verif.Lemmas.FromSigmas
import Verif.Props.SolveCall
import Verif.Props.Examples

/-
Consuming generators in any order, with the data changing in between.
-/
set_option linter.unusedSectionVars false
namespace CovPred

variable {τ L : Type} [LinearOrder τ] {n K : ℕ}

private theorem out_push_zero {A : Type} (x : Option A) (tr : Trace A) : (tr.push x).out 0 = .item x := rfl

private theorem out_push_succ {A : Type} (x : Option A) (tr : Trace A) (k : ℕ) : (tr.push x).out (k + 1) = tr.out k := by
  unfold Trace.out Trace.push
  simp only [List.getElem?_cons_succ, List.length_cons, Nat.add_right_cancel_iff]

private theorem out_err_succ {A : Type} (e : Option Err) (k : ℕ) : (⟨[], e⟩ : Trace A).out (k + 1) = .stop := by
  unfold Trace.out
  simp

/-- what a generator that has been started still does -/
private noncomputable def still (rows : List (Row τ n K)) : SolveGen τ n K → ℕ → NextOut (Result τ n K)
  | .paused solver w hist todo => (solveLoop solver rows w hist todo).out
  | _ => fun _ => .stop

private def Started : SolveGen τ n K → Prop
  | .fresh _ _ _ => False
  | _ => True

private theorem loop_still (rows : List (Row τ n K)) (keys : List L) (hk : keys.length = K) (solver : Solver n K) (w : ℕ)
    (hist : List (Params n K)) (todo : List (τ × Params n K)) :
    Started (loopNext rows keys solver w hist todo).1 ∧
    (loopNext rows keys solver w hist todo).2.plain = (solveLoop solver rows w hist todo).out 0 ∧
    ∀ k, still rows (loopNext rows keys solver w hist todo).1 k = (solveLoop solver rows w hist todo).out (k + 1) := by
  cases todo with
  | nil => exact ⟨trivial, rfl, fun k => (out_err_succ none k).symm⟩
  | cons tp rest =>
    obtain ⟨t, p⟩ := tp
    unfold loopNext solveLoop
    dsimp only
    by_cases h1 : p.A.length ≠ w
    · rw [if_pos h1, if_pos h1]
      exact ⟨trivial, rfl, fun k => (out_err_succ _ k).symm⟩
    · rw [if_neg h1, if_neg h1]
      cases solver (hist ++ [p]) with
      | raises e => exact ⟨trivial, rfl, fun k => (out_err_succ _ k).symm⟩
      | solverError => exact ⟨trivial, rfl, fun k => (out_push_succ _ _ k).symm⟩
      | weights x =>
        dsimp only
        rw [if_neg (not_not.2 hk)]
        cases blendAt rows t x with
        | error e => exact ⟨trivial, rfl, fun k => (out_err_succ _ k).symm⟩
        | ok r => exact ⟨trivial, rfl, fun k => (out_push_succ _ _ k).symm⟩

private theorem next_still (rows : List (Row τ n K)) (R : Dict τ (Vec n)) (keys : List L) (hk : keys.length = K) (g : SolveGen τ n K)
    (hg : Started g) :
    Started (g.next rows R keys).1 ∧ (g.next rows R keys).2.plain = still rows g 0 ∧
    ∀ k, still rows (g.next rows R keys).1 k = still rows g (k + 1) := by
  cases g with
  | fresh _ _ _ => exact hg.elim
  | paused solver w hist todo => exact loop_still rows keys hk solver w hist todo
  | ended => exact ⟨trivial, rfl, fun _ => rfl⟩

private theorem fresh_still (rows : List (Row τ n K)) (R : Dict τ (Vec n)) (keys : List L) (hk : keys.length = K)
    (solver : Solver n K) (window : Option Int) (times : Option (List τ)) :
    Started ((SolveGen.fresh solver window times).next rows R keys).1 ∧
    ((SolveGen.fresh solver window times).next rows R keys).2.plain
      = (Comb.solveCall { rows := rows, returns := R } solver window times).out 0 ∧
    ∀ k, still rows ((SolveGen.fresh solver window times).next rows R keys).1 k
      = (Comb.solveCall { rows := rows, returns := R } solver window times).out (k + 1) := by
  unfold SolveGen.next Comb.solveCall
  dsimp only
  cases solvePrepZ { rows := rows, returns := R } window times with
  | error e => exact ⟨trivial, rfl, fun k => (out_err_succ _ k).symm⟩
  | ok wps =>
    obtain ⟨w, ps⟩ := wps
    dsimp only
    rw [if_neg (by omega), if_neg (by omega)]
    exact loop_still rows keys hk solver w.toNat [] ps

/-- all changes of the dictionary keep `K` keys -/
private def KeepK (ops : List (SolveOp τ L n K)) : Prop := ∀ ks, SolveOp.setKeys ks ∈ ops → ks.length = K

private theorem setTimes_started {g : SolveGen τ n K} (ts : List τ) (hg : Started g) : g.setTimes ts = g := by
  cases g with
  | fresh _ _ _ => exact hg.elim
  | paused _ _ _ _ => rfl
  | ended => rfl

private theorem range_cons {A : Type} (f : ℕ → A) (m : ℕ) :
    (List.range (1 + m)).map f = f 0 :: (List.range m).map fun k => f (k + 1) := by
  rw [Nat.add_comm 1 m, List.range_succ_eq_map, List.map_cons, List.map_map]
  rfl

private theorem started_outputs (i : ℕ) : ∀ (ops : List (SolveOp τ L n K)) (s : SolveSession τ L n K) (g : SolveGen τ n K),
    s.gens[i]? = some g → Started g → s.keys.length = K → KeepK ops →
    (s.outputs i ops).map NextOut.plain = (List.range (nexts i ops)).map (still s.rows g) := by
  intro ops
  induction ops with
  | nil => intro s g _ _ _ _; rfl
  | cons op ops ih =>
    intro s g hgi hg hk hops
    have hops' : KeepK ops := fun ks h => hops ks (List.mem_cons_of_mem _ h)
    have hi : i < s.gens.length := by
      by_contra h
      rw [List.getElem?_eq_none (by omega)] at hgi
      cases hgi
    unfold SolveSession.outputs
    cases op with
    | solve solver window times =>
      simp only [SolveSession.step, List.nil_append, nexts]
      exact ih { s with gens := s.gens ++ [.fresh solver window times] } g (by
        show (s.gens ++ _)[i]? = _
        rw [List.getElem?_append_left hi]; exact hgi) hg hk hops'
    | setReturns R =>
      simp only [SolveSession.step, List.nil_append, nexts]
      exact ih { s with returns := R } g hgi hg hk hops'
    | setKeys ks =>
      simp only [SolveSession.step, List.nil_append, nexts]
      exact ih { s with keys := ks } g hgi hg (hops ks List.mem_cons_self) hops'
    | setTimes j ts =>
      simp only [SolveSession.step, List.nil_append, nexts]
      refine ih { s with gens := s.gens.modify j (SolveGen.setTimes ts) } g ?_ hg hk hops'
      show (s.gens.modify j (SolveGen.setTimes ts))[i]? = _
      rw [List.getElem?_modify, hgi]
      split
      · simp [setTimes_started ts hg]
      · rfl
    | next j =>
      by_cases hj : j = i
      · subst hj
        obtain ⟨h1, h2, h3⟩ := next_still s.rows s.returns s.keys hk g hg
        simp only [SolveSession.step, hgi, nexts, if_true, List.map_append, List.map_cons, List.map_nil, List.singleton_append]
        rw [range_cons, h2]
        congr 1
        have := ih { s with gens := s.gens.set j (g.next s.rows s.returns s.keys).1 } (g.next s.rows s.returns s.keys).1
          (by show (s.gens.set j _)[j]? = _; rw [List.getElem?_set_self hi]) h1 hk hops'
        rw [this]
        apply List.map_congr_left
        intro k _
        exact h3 k
      · cases hgj : s.gens[j]? with
        | none =>
          simp only [SolveSession.step, hgj, nexts, if_neg hj, List.nil_append, Nat.zero_add]
          exact ih s g hgi hg hk hops'
        | some g' =>
          simp only [SolveSession.step, hgj, nexts, if_neg hj, List.nil_append, Nat.zero_add]
          exact ih { s with gens := s.gens.set j (g'.next s.rows s.returns s.keys).1 } g (by
            show (s.gens.set j _)[i]? = _
            rw [List.getElem?_set_ne hj]; exact hgi) hg hk hops'

private theorem outputs_append (i : ℕ) (pre post : List (SolveOp τ L n K)) : ∀ s : SolveSession τ L n K,
    s.outputs i (pre ++ post) = s.outputs i pre ++ (s.run pre).outputs i post := by
  induction pre with
  | nil => intro s; rfl
  | cons op pre ih =>
    intro s
    simp only [List.cons_append, SolveSession.outputs, SolveSession.run, ih, List.append_assoc]

private theorem nexts_append (i : ℕ) (pre post : List (SolveOp τ L n K)) : nexts i (pre ++ post) = nexts i pre + nexts i post := by
  induction pre with
  | nil => simp [nexts]
  | cons op pre ih =>
    rw [List.cons_append]
    cases op <;> simp only [nexts, ih]
    omega

private theorem no_next (i : ℕ) : ∀ (ops : List (SolveOp τ L n K)) (s : SolveSession τ L n K), SolveOp.next i ∉ ops →
    s.outputs i ops = [] ∧ nexts i ops = 0 := by
  intro ops
  induction ops with
  | nil => intro s _; exact ⟨rfl, rfl⟩
  | cons op ops ih =>
    intro s h
    rw [List.mem_cons, not_or] at h
    unfold SolveSession.outputs
    cases op with
    | solve _ _ _ => exact ih _ h.2
    | setReturns _ => exact ih _ h.2
    | setKeys _ => exact ih _ h.2
    | setTimes _ _ => exact ih _ h.2
    | next j =>
      have hj : j ≠ i := by rintro rfl; exact h.1 rfl
      simp only [nexts, if_neg hj, Nat.zero_add]
      cases hgj : s.gens[j]? with
      | none =>
        simp only [SolveSession.step, hgj, List.nil_append]
        exact ih _ h.2
      | some g' =>
        simp only [SolveSession.step, hgj, if_neg hj, List.nil_append]
        exact ih _ h.2

private theorem run_rows (ops : List (SolveOp τ L n K)) : ∀ s : SolveSession τ L n K, (s.run ops).rows = s.rows := by
  induction ops with
  | nil => intro s; rfl
  | cons op ops ih =>
    intro s
    unfold SolveSession.run
    rw [ih]
    cases op with
    | solve _ _ _ => rfl
    | setReturns _ => rfl
    | setKeys _ => rfl
    | setTimes _ _ => rfl
    | next j =>
      unfold SolveSession.step
      dsimp only
      cases s.gens[j]? <;> rfl

private theorem run_keys (ops : List (SolveOp τ L n K)) : ∀ s : SolveSession τ L n K, s.keys.length = K → KeepK ops →
    (s.run ops).keys.length = K := by
  induction ops with
  | nil => intro s h _; exact h
  | cons op ops ih =>
    intro s h hops
    unfold SolveSession.run
    have hops' : KeepK ops := fun ks h => hops ks (List.mem_cons_of_mem _ h)
    cases op with
    | solve _ _ _ => exact ih _ h hops'
    | setReturns _ => exact ih _ h hops'
    | setKeys ks => exact ih _ (hops ks List.mem_cons_self) hops'
    | setTimes _ _ => exact ih _ h hops'
    | next j =>
      apply ih _ _ hops'
      unfold SolveSession.step
      dsimp only
      cases s.gens[j]? <;> exact h

/-- **C181.** Consuming `solve`. Call `solve` on an object, then do anything: call `solve` again, advance any generators in any
order, change the returns, the lists `times`, or the dictionary of covariances as long as it keeps as many keys. What the calls
of `next` on the new generator do is what it does when it is exhausted at once on the returns and `times` *at its first
`next`*: neither what was there at the call of `solve` nor what is there later matters, nor do the other generators. -/
theorem C181_consume (s : SolveSession τ L n K) (hk : s.keys.length = K) (i : ℕ) (pre post : List (SolveOp τ L n K))
    (hpre : SolveOp.next i ∉ pre) (hkeep : ∀ ks, SolveOp.setKeys ks ∈ pre ++ post → ks.length = K)
    (solver : Solver n K) (window : Option Int) (times : Option (List τ))
    (hi : (s.run pre).gens[i]? = some (.fresh solver window times)) :
    (s.outputs i (pre ++ .next i :: post)).map NextOut.plain
      = (List.range (nexts i (pre ++ .next i :: post))).map
          (Comb.solveCall { rows := s.rows, returns := (s.run pre).returns } solver window times).out := by
  have h1 := no_next i pre s hpre
  rw [outputs_append, nexts_append, h1.1, h1.2, List.nil_append, Nat.zero_add]
  have hr := run_rows pre s
  have hk' := run_keys pre s hk fun ks h => hkeep ks (List.mem_append_left _ h)
  have hpost : KeepK post := fun ks h => hkeep ks (List.mem_append_right _ h)
  generalize s.run pre = s1 at hi hr hk' ⊢
  have hlen : i < s1.gens.length := by
    by_contra h
    rw [List.getElem?_eq_none (by omega)] at hi
    cases hi
  obtain ⟨hg, h0, hS⟩ := fresh_still s1.rows s1.returns s1.keys hk' solver window times
  rw [← hr]
  unfold SolveSession.outputs
  simp only [SolveSession.step, hi, nexts, if_true, List.map_append, List.map_cons, List.map_nil, List.singleton_append]
  rw [range_cons, h0]
  congr 1
  have := started_outputs i post { s1 with gens := s1.gens.set i _ } _
    (by show (s1.gens.set i _)[i]? = _; rw [List.getElem?_set_self hlen]) hg hk' hpost
  rw [this]
  apply List.map_congr_left
  intro k _
  exact hS k

private theorem outputs_congr (i : ℕ) : ∀ (ops : List (SolveOp τ L n K)) (s s' : SolveSession τ L n K) (g : SolveGen τ n K),
    s.gens[i]? = some g → s'.gens[i]? = some g → s'.rows = s.rows → s'.returns = s.returns → s'.keys = s.keys →
    s'.outputs i (ops.filter (SolveOp.concerns i)) = s.outputs i ops := by
  intro ops
  induction ops with
  | nil => intro s s' g _ _ _ _ _; rfl
  | cons op ops ih =>
    intro s s' g hg hg' h1 h2 h3
    have hi : i < s.gens.length := by
      by_contra h
      rw [List.getElem?_eq_none (by omega)] at hg
      cases hg
    have hi' : i < s'.gens.length := by
      by_contra h
      rw [List.getElem?_eq_none (by omega)] at hg'
      cases hg'
    rw [List.filter_cons]
    cases op with
    | solve solver window times =>
      simp only [SolveOp.concerns, Bool.false_eq_true, if_false]
      rw [SolveSession.outputs]
      simp only [SolveSession.step, List.nil_append]
      exact ih { s with gens := s.gens ++ [.fresh solver window times] } s' g (by
        show (s.gens ++ _)[i]? = _
        rw [List.getElem?_append_left hi]; exact hg) hg' h1 h2 h3
    | setReturns R =>
      simp only [SolveOp.concerns, if_true]
      rw [SolveSession.outputs, SolveSession.outputs]
      simp only [SolveSession.step, List.nil_append]
      exact ih { s with returns := R } { s' with returns := R } g hg hg' h1 rfl h3
    | setKeys ks =>
      simp only [SolveOp.concerns, if_true]
      rw [SolveSession.outputs, SolveSession.outputs]
      simp only [SolveSession.step, List.nil_append]
      exact ih { s with keys := ks } { s' with keys := ks } g hg hg' h1 h2 rfl
    | setTimes j ts =>
      by_cases hj : j = i
      · subst hj
        simp only [SolveOp.concerns, decide_true, if_true]
        rw [SolveSession.outputs, SolveSession.outputs]
        simp only [SolveSession.step, List.nil_append]
        refine ih { s with gens := s.gens.modify j (SolveGen.setTimes ts) } { s' with gens := s'.gens.modify j (SolveGen.setTimes ts) }
          (g.setTimes ts) ?_ ?_ h1 h2 h3
        · show (s.gens.modify j (SolveGen.setTimes ts))[j]? = _
          rw [List.getElem?_modify, hg]; simp
        · show (s'.gens.modify j (SolveGen.setTimes ts))[j]? = _
          rw [List.getElem?_modify, hg']; simp
      · simp only [SolveOp.concerns, hj, decide_false, Bool.false_eq_true, if_false]
        rw [SolveSession.outputs]
        simp only [SolveSession.step, List.nil_append]
        refine ih { s with gens := s.gens.modify j (SolveGen.setTimes ts) } s' g ?_ hg' h1 h2 h3
        show (s.gens.modify j (SolveGen.setTimes ts))[i]? = _
        rw [List.getElem?_modify, hg]; simp [hj]
    | next j =>
      by_cases hj : j = i
      · subst hj
        simp only [SolveOp.concerns, decide_true, if_true]
        rw [SolveSession.outputs, SolveSession.outputs]
        simp only [SolveSession.step, hg, hg', h1, h2, h3, if_true]
        congr 1
        refine ih { s with gens := s.gens.set j (g.next s.rows s.returns s.keys).1 }
          { s with gens := s'.gens.set j (g.next s.rows s.returns s.keys).1 } (g.next s.rows s.returns s.keys).1 ?_ ?_ rfl rfl rfl
        · show (s.gens.set j _)[j]? = _
          rw [List.getElem?_set_self hi]
        · show (s'.gens.set j _)[j]? = _
          rw [List.getElem?_set_self hi']
      · simp only [SolveOp.concerns, hj, decide_false, Bool.false_eq_true, if_false]
        rw [SolveSession.outputs]
        rcases hgj : s.gens[j]? with _ | gj
        · simp only [SolveSession.step, hgj, List.nil_append]
          exact ih s s' g hg hg' h1 h2 h3
        · simp only [SolveSession.step, hgj, hj, if_false, List.nil_append]
          refine ih { s with gens := s.gens.set j (gj.next s.rows s.returns s.keys).1 } s' g ?_ hg' h1 h2 h3
          show (s.gens.set j _)[i]? = _
          rw [List.getElem?_set_ne hj]; exact hg

/-- **C181.** What a generator returns depends on nothing but the calls of `next` on it and the changes of its data: all calls of
`solve` and everything done with the other generators may be left out (whatever the number of keys is meanwhile). -/
theorem C181_isolated (s : SolveSession τ L n K) (i : ℕ) (hi : i < s.gens.length) (ops : List (SolveOp τ L n K)) :
    s.outputs i (ops.filter (SolveOp.concerns i)) = s.outputs i ops :=
  outputs_congr i ops s s _ (List.getElem?_eq_getElem hi) (List.getElem?_eq_getElem hi) rfl rfl rfl

private theorem loop_labels (rows : List (Row τ n K)) (keys : List L) (solver : Solver n K) (w : ℕ) (hist : List (Params n K))
    (todo : List (τ × Params n K)) (r : Result τ n K) (l : List (L × ℝ))
    (h : (loopNext rows keys solver w hist todo).2 = .item (some (r, l))) :
    keys.length = K ∧ l = List.zip keys (List.ofFn r.weights) := by
  cases todo with
  | nil => cases h
  | cons tp rest =>
    obtain ⟨t, p⟩ := tp
    unfold loopNext at h
    dsimp only at h
    split at h
    · cases h
    · cases hs : solver (hist ++ [p]) with
      | raises e => rw [hs] at h; cases h
      | solverError => rw [hs] at h; cases h
      | weights x =>
        rw [hs] at h
        dsimp only at h
        split at h
        · cases h
        · rename_i hk
          cases hb : blendAt rows t x with
          | error e => rw [hb] at h; cases h
          | ok r' =>
            rw [hb] at h
            cases h
            refine ⟨not_not.1 hk, ?_⟩
            obtain ⟨_, _, _, hw, _⟩ := blendAt_inv hb
            rw [hw]

/-- **C181.** The labels of the weights are the keys of the dictionary at the moment of the `next`, in their order at that
moment: the `k`-th weight belongs to the `k`-th expert of the constructor, whatever key is now at its place. -/
theorem C181_labels (s : SolveSession τ L n K) (i : ℕ) (s' : SolveSession τ L n K) (r : Result τ n K) (l : List (L × ℝ))
    (h : s.step (.next i) = (s', some (i, .item (some (r, l))))) :
    s.keys.length = K ∧ l = List.zip s.keys (List.ofFn r.weights) := by
  unfold SolveSession.step at h
  dsimp only at h
  cases hg : s.gens[i]? with
  | none => rw [hg] at h; cases h
  | some g =>
    rw [hg] at h
    dsimp only at h
    have h' : (g.next s.rows s.returns s.keys).2 = .item (some (r, l)) := by
      have := congrArg Prod.snd h
      simpa using this
    cases g with
    | ended => cases h'
    | paused solver w hist todo => exact loop_labels _ _ _ _ _ _ _ _ h'
    | fresh solver window times =>
      unfold SolveGen.next at h'
      dsimp only at h'
      cases hp : solvePrepZ { rows := s.rows, returns := s.returns } window times with
      | error e => rw [hp] at h'; cases h'
      | ok wps =>
        rw [hp] at h'
        dsimp only at h'
        split at h'
        · cases h'
        · split at h'
          · cases h'
          · exact loop_labels _ _ _ _ _ _ _ _ h'

/-- **C181.** Another number of keys. If the caller has added experts to the dictionary of covariances before the first `next`,
or removed some, the generator ends with `IndexError`, or `ValueError`, where it would have yielded a result; after the first
`next` with `ValueError` in both cases. -/
theorem C181_keys (rows : List (Row τ n K)) (R : Dict τ (Vec n)) (keys keys' : List L) (hk : keys.length = K)
    (hk' : keys'.length ≠ K) (g g' : SolveGen τ n K) (x : SolveItem τ L n K) (h : g.next rows R keys = (g', .item (some x))) :
    (g.next rows R keys').1 = .ended ∧
    ((∃ solver window times, g = .fresh solver window times) → K < keys'.length →
      (g.next rows R keys').2 = .raises .indexError) ∧
    ((∃ solver window times, g = .fresh solver window times) → keys'.length < K →
      (g.next rows R keys').2 = .raises .valueError) ∧
    ((∃ solver w hist todo, g = .paused solver w hist todo) → (g.next rows R keys').2 = .raises .valueError) := by
  have loop : ∀ (solver : Solver n K) (w : ℕ) (hist : List (Params n K)) (todo : List (τ × Params n K)),
      loopNext rows keys solver w hist todo = (g', .item (some x)) →
      todo ≠ [] ∧ loopNext rows keys' solver w hist todo = (.ended, .raises .valueError) := by
    intro solver w hist todo h
    cases todo with
    | nil => cases h
    | cons tp rest =>
      obtain ⟨t, p⟩ := tp
      refine ⟨by simp, ?_⟩
      unfold loopNext at h ⊢
      dsimp only at h ⊢
      split
      · rfl
      · rename_i h1
        rw [if_neg h1] at h
        cases hs : solver (hist ++ [p]) with
        | raises e => rw [hs] at h; cases h
        | solverError => rw [hs] at h; cases h
        | weights y =>
          dsimp only
  cases g with
  | ended => cases h
  | paused solver w hist todo =>
    have := (loop solver w hist todo h).2
    refine ⟨congrArg Prod.fst this, ?_, ?_, fun _ => congrArg Prod.snd this⟩
    · rintro ⟨_, _, _, e⟩; cases e
    · rintro ⟨_, _, _, e⟩; cases e
  | fresh solver window times =>
    unfold SolveGen.next at h ⊢
    dsimp only at h ⊢
    cases hp : solvePrepZ { rows := rows, returns := R } window times with
    | error e => rw [hp] at h; cases h
    | ok wps =>
      obtain ⟨w, ps⟩ := wps
      rw [hp] at h
      dsimp only at h ⊢
      rw [if_neg (by omega), if_neg (by omega)] at h
      have hne := (loop solver w.toNat [] ps h).1
      rcases lt_or_gt_of_ne hk' with hlt | hgt
      · rw [if_neg (by omega), if_pos ⟨hne, hlt⟩]
        refine ⟨rfl, fun _ h => absurd h (by omega), fun _ _ => rfl, ?_⟩
        rintro ⟨_, _, _, _, e⟩; cases e
      · rw [if_pos ⟨hne, hgt⟩]
        refine ⟨rfl, fun _ _ => rfl, fun _ h => absurd h (by omega), ?_⟩
        rintro ⟨_, _, _, _, e⟩; cases e

section iewma

variable {ι α : Type} [Ix ι] [Scalar α]

private theorem iewma_prep (returns : Frame τ ι α) (a : IewmaArgs α) :
    iteratedEwma returns a = iewmaPrep returns a >>= fun q =>
      q.2.2.2.mapM fun p => iewmaItem a.mean q.1 q.2.1 q.2.2.1 p.1 p.2 := by
  unfold iteratedEwma iewmaPrep
  simp only [bind_assoc, pure_bind]

private theorem ewma_started (mean : Bool) (vola returnsMean adjMean : Frame τ ι α) : ∀ (ops : List (Option (Frame τ ι α)))
    (todo : Frame τ (ι × ι) α) (R : Frame τ ι α) (l : List (IEWMA τ ι α)),
    (todo.mapM fun p => iewmaItem mean vola returnsMean adjMean p.1 p.2) = .ok l →
    (EwmaGen.paused mean vola returnsMean adjMean todo).outputs R ops
      = (List.range (ops.filter Option.isNone).length).map (⟨l.map some, none⟩ : Trace (IEWMA τ ι α)).out := by
  have done : ∀ (ops : List (Option (Frame τ ι α))) (R : Frame τ ι α), (EwmaGen.ended : EwmaGen τ ι α).outputs R ops
      = (List.range (ops.filter Option.isNone).length).map fun _ => .stop := by
    intro ops
    induction ops with
    | nil => intro R; rfl
    | cons op ops ih =>
      intro R
      cases op with
      | some R' => exact ih R'
      | none =>
        show _ :: EwmaGen.outputs R _ ops = _
        rw [List.filter_cons_of_pos rfl, List.length_cons, Nat.add_comm, range_cons]
        congr 1
        exact ih R
  intro ops
  induction ops with
  | nil => intro todo R l _; rfl
  | cons op ops ih =>
    intro todo R l h
    cases op with
    | some R' => exact ih todo R' l h
    | none =>
      rw [List.filter_cons_of_pos rfl, List.length_cons, Nat.add_comm, range_cons]
      cases todo with
      | nil =>
        cases h
        show _ :: EwmaGen.outputs R _ ops = _
        congr 1
        refine (done ops R).trans ?_
        apply List.map_congr_left
        intro k _
        exact (out_err_succ none k).symm
      | cons p todo =>
        rw [List.mapM_cons] at h
        cases hx : iewmaItem mean vola returnsMean adjMean p.1 p.2 with
        | error e => rw [hx] at h; cases h
        | ok x =>
          rw [hx, ok_bind] at h
          cases hl : todo.mapM fun p => iewmaItem mean vola returnsMean adjMean p.1 p.2 with
          | error e => rw [hl] at h; cases h
          | ok l' =>
            rw [hl] at h
            cases h
            show ((EwmaGen.paused mean vola returnsMean adjMean (p :: todo)).next R).2 :: EwmaGen.outputs R _ ops = _
            have hn : (EwmaGen.paused mean vola returnsMean adjMean (p :: todo)).next R
                = (.paused mean vola returnsMean adjMean todo, .item (some x)) := by
              unfold EwmaGen.next ewmaLoopNext
              dsimp only
              rw [hx]
            rw [hn]
            congr 1
            refine (ih todo R l' hl).trans ?_
            apply List.map_congr_left
            intro k _
            exact (out_push_succ (some x) ⟨l'.map some, none⟩ k).symm

/-- **C181.** Consuming `iterated_ewma`. Whenever the caller changes its frame of returns, before the first `next` (`pre`) or
later (`post`): the generator yields the results for the frame as it is at the first `next`, then stops. -/
theorem C181_iterated_ewma (a : IewmaArgs α) (R0 R : Frame τ ι α) (pre : List (Frame τ ι α)) (hR : (R0 :: pre).getLast? = some R)
    (post : List (Option (Frame τ ι α))) (l : List (IEWMA τ ι α)) (h : iteratedEwma R a = .ok l) :
    (EwmaGen.fresh a).outputs R0 (pre.map some ++ none :: post)
      = (List.range ((post.filter Option.isNone).length + 1)).map (⟨l.map some, none⟩ : Trace (IEWMA τ ι α)).out := by
  induction pre generalizing R0 with
  | cons R1 pre ih =>
    rw [List.getLast?_cons_cons] at hR
    exact ih R1 hR
  | nil =>
    have e0 : R = R0 := by simpa using hR.symm
    subst e0
    rw [iewma_prep] at h
    cases hp : iewmaPrep R a with
    | error e => rw [hp] at h; cases h
    | ok q =>
      obtain ⟨vola, returnsMean, adjMean, covs⟩ := q
      rw [hp] at h
      have h' : (covs.mapM fun p => iewmaItem a.mean vola returnsMean adjMean p.1 p.2) = .ok l := h
      have e : ∀ ops, (EwmaGen.fresh a).outputs R (none :: ops)
          = (EwmaGen.paused a.mean vola returnsMean adjMean covs).outputs R (none :: ops) := by
        intro ops
        show ((EwmaGen.fresh a).next R).2 :: EwmaGen.outputs R ((EwmaGen.fresh a).next R).1 ops = _
        have : (EwmaGen.fresh a).next R = (EwmaGen.paused a.mean vola returnsMean adjMean covs).next R := by
          unfold EwmaGen.next
          dsimp only
          rw [hp]
        rw [this]
        rfl
      show (EwmaGen.fresh a).outputs R (none :: post) = _
      rw [e, ewma_started a.mean vola returnsMean adjMean (none :: post) covs R l h', List.filter_cons_of_pos rfl,
        List.length_cons]

end iewma

/-! ### The hypotheses are met -/

/-- Two generators with different windows, advanced in turn; after the first `next` of the first one all rows of the returns are
deleted and an expert is taken out of the dictionary and put back at the end. The first generator still gives the two results of
`solve(window=2)` and then stops. -/
example : ((⟨(Demo.panel.comb Demo.returns).rows, Demo.returns, ["fast", "slow"], []⟩ : SolveSession ℕ String 2 2).outputs 0
      ([.solve (exactSolver 2 2) (some 2) none, .solve (exactSolver 2 2) (some 1) none, .next 1] ++ .next 0 ::
        [.setReturns [], .setKeys ["slow", "fast"], .next 1, .next 0, .next 0])).map NextOut.plain
    = [.item (some (Demo.panel.predict 2 (Demo.panel.best 2 2))), .item (some (Demo.panel.predict 3 (Demo.panel.best 2 3))),
        .stop] := by
  have hr : ∀ (R : Dict ℕ (Vec 2)) (g : List (SolveGen ℕ 2 2)),
      ((⟨(Demo.panel.comb Demo.returns).rows, R, ["fast", "slow"], g⟩ : SolveSession ℕ String 2 2).step (.next 1)).1.returns = R := by
    intro R g
    unfold SolveSession.step
    dsimp only
    cases g[1]? <;> rfl
  rw [C181_consume _ rfl 0 _ _ (by simp) (by
      intro ks h
      have : ks = ["slow", "fast"] := by simpa using h
      rw [this]; rfl) (exactSolver 2 2) (some 2) none]
  · have hc : (Comb.solveCall ⟨(Demo.panel.comb Demo.returns).rows, Demo.returns⟩ (exactSolver 2 2) (some 2) none)
        = ⟨[some (Demo.panel.predict 2 (Demo.panel.best 2 2)), some (Demo.panel.predict 3 (Demo.panel.best 2 3))], none⟩ :=
      (C133_panel Demo.panel_gives _ (some 2) none).trans Demo.panel_solve
    have hR : ((⟨(Demo.panel.comb Demo.returns).rows, Demo.returns, ["fast", "slow"], []⟩ : SolveSession ℕ String 2 2).run
        [.solve (exactSolver 2 2) (some 2) none, .solve (exactSolver 2 2) (some 1) none, .next 1]).returns = Demo.returns :=
      hr Demo.returns _
    rw [hR, hc]
    rfl
  · rfl

/-- The frame is filled after the call of `iterated_ewma` and emptied after the first `next`: both results, then the end. -/
example : (EwmaGen.fresh Ex.args.toArgs).outputs [] [some Ex.frame, none, some [], none, none]
    = [.item (some (itemAt Ex.args 3 id Ex.x 1)), .item (some (itemAt Ex.args 3 id Ex.x 2)), .stop] :=
  C181_iterated_ewma Ex.args.toArgs [] Ex.frame [Ex.frame] rfl [some [], none, none] _ Ex.run

end CovPred
