import Verif.Spec.Backtests
import Verif.Lemmas.Combination
import Verif.Lemmas.FromEwmas

namespace CovPred
open Matrix

variable {τ : Type} [DecidableEq τ] {n : ℕ}

/-! ### Lists -/

/-- a value, or the default in case of an exception -/
noncomputable def okOr {B : Type} [Inhabited B] (e : Except Err B) : B :=
  match e with
  | .ok b => b
  | .error _ => default

theorem okOr_ok {B : Type} [Inhabited B] {e : Except Err B} {b : B} (h : e = .ok b) : okOr e = b := by rw [h]; rfl

theorem mapM_map_ok_iff {I A B : Type} [Inhabited B] (l : List I) (f : I → A) (g : A → Except Err B) (r : List B) :
    (l.map f).mapM g = .ok r ↔ ∃ v : I → B, (∀ t ∈ l, g (f t) = .ok (v t)) ∧ r = l.map v := by
  rw [mapM_ok_iff_forall₂]
  constructor
  · intro h
    refine ⟨fun t => okOr (g (f t)), ?_, ?_⟩
    · induction l generalizing r with
      | nil => simp
      | cons a l ih =>
        rw [List.map_cons, List.forall₂_cons_left_iff] at h
        obtain ⟨b, r', hb, hr, _⟩ := h
        intro t ht
        rcases List.mem_cons.1 ht with rfl | ht
        · exact hb.trans (congrArg _ (okOr_ok hb).symm)
        · exact ih _ hr t ht
    · induction l generalizing r with
      | nil => simpa using h
      | cons a l ih =>
        rw [List.map_cons, List.forall₂_cons_left_iff] at h
        obtain ⟨b, r', hb, hr, rfl⟩ := h
        rw [List.map_cons, ih _ hr, okOr_ok hb]
  · rintro ⟨v, hv, rfl⟩
    rw [List.forall₂_map_left_iff, List.forall₂_map_right_iff]
    exact List.forall₂_same.2 hv

theorem getItem_ok_iff {A : Type} (d : Dict τ A) (t : τ) (a : A) : getItem d t = .ok a ↔ d.lookup t = some a := by
  unfold getItem
  cases d.lookup t with
  | none => simp
  | some b => simp

theorem getItem_error (A : Type) (d : Dict τ A) (t : τ) (e : Err) :
    getItem d t = .error e ↔ d.lookup t = none ∧ e = .keyError := by
  unfold getItem
  cases d.lookup t with
  | none => simp [eq_comm]
  | some b => simp

theorem restrict_ok_iff {I A : Type} [Inhabited A] (d : Dict τ A) (l : List I) (tm : I → τ) (r : Dict τ A) :
    restrict d (l.map tm) = .ok r ↔
      ∃ v : I → A, (∀ t ∈ l, d.lookup (tm t) = some (v t)) ∧ r = l.map fun t => (tm t, v t) := by
  unfold restrict
  have : Nonempty (Inhabited (τ × A)) ∨ l = [] := by
    cases l with
    | nil => exact .inr rfl
    | cons a l => exact .inl ⟨⟨(tm a, default)⟩⟩
  rcases this with hi | rfl
  · haveI := hi.some
    rw [mapM_map_ok_iff]
    have key : ∀ t (q : τ × A), (do
        let a ← getItem d (tm t)
        pure (tm t, a) : Except Err (τ × A)) = .ok q ↔ d.lookup (tm t) = some q.2 ∧ q.1 = tm t := by
      intro t q
      rw [← getItem_ok_iff]
      cases getItem d (tm t) with
      | error e => simp [Bind.bind, Except.bind]
      | ok a =>
        change Except.ok (tm t, a) = Except.ok q ↔ _
        obtain ⟨q1, q2⟩ := q
        simp only [Except.ok.injEq, Prod.mk.injEq]
        constructor
        · rintro ⟨rfl, rfl⟩; exact ⟨rfl, rfl⟩
        · rintro ⟨rfl, rfl⟩; exact ⟨rfl, rfl⟩
    constructor
    · rintro ⟨v, hv, rfl⟩
      refine ⟨fun t => (v t).2, fun t ht => ((key t _).1 (hv t ht)).1, ?_⟩
      refine List.map_congr_left fun t ht => ?_
      rw [← ((key t _).1 (hv t ht)).2]
    · rintro ⟨v, hv, rfl⟩
      exact ⟨fun t => (tm t, v t), fun t ht => (key t _).2 ⟨hv t ht, rfl⟩, rfl⟩
  · simp only [List.map_nil, List.mapM_nil]
    constructor
    · intro h; cases h; exact ⟨fun _ => default, by simp, rfl⟩
    · rintro ⟨_, _, rfl⟩; rfl

theorem restrict_error {A : Type} (d : Dict τ A) (l : List τ) (e : Err) :
    restrict d l = .error e → e = .keyError ∧ ∃ t ∈ l, d.lookup t = none := by
  unfold restrict
  induction l with
  | nil => intro h; cases h
  | cons a l ih =>
    rw [List.mapM_cons]
    unfold getItem
    cases h : d.lookup a with
    | none =>
      intro h'
      cases h'
      exact ⟨rfl, a, by simp, h⟩
    | some b =>
      intro h'
      cases hl : (l.mapM fun t => do
        let a ← getItem d t
        pure (t, a) : Except Err (List (τ × A))) with
      | ok r =>
        unfold getItem at hl
        rw [hl] at h'
        cases h'
      | error e' =>
        rw [hl] at ih
        unfold getItem at hl
        rw [hl] at h'
        cases h'
        obtain ⟨h1, t, ht, h2⟩ := ih rfl
        exact ⟨h1, t, by simp [ht], h2⟩

/-! ### The pairing -/

/-- `shift(-1)` of a frame -/
private theorem shiftBack_frame (tm : ℕ → τ) (r : ℕ → NRow n) (T : ℕ) :
    shiftBack ((List.range T).map fun t => (tm t, r t))
      = (List.range T).map fun t => (tm t, if t + 1 < T then r (t + 1) else fun _ => none) := by
  unfold shiftBack
  rw [List.map_map, List.map_map]
  apply List.ext_getElem
  · simp
    omega
  · intro i h1 h2
    have hi : i < T := by simpa using h2
    simp only [List.getElem_zip, List.getElem_map, List.getElem_range, Function.comp_apply]
    congr 1
    by_cases hT : i + 1 < T
    · rw [List.getElem_append_left (by simp; omega), if_pos hT]
      simp
    · rw [List.getElem_append_right (by simp; omega), if_neg hT]
      simp

theorem idxOf_rows {A : Type} {T : ℕ} {tm : ℕ → τ} (htm : DistinctLabels T tm) (x : ℕ → A) {a : ℕ} (ha : a < T) :
    ((rowDict T tm x).map Prod.fst).idxOf (tm a) = a := by
  have e : (rowDict T tm x).map Prod.fst = (List.range T).map tm := by
    unfold rowDict; rw [List.map_map]; rfl
  rw [e]
  have hnd : ((List.range T).map tm).Nodup := by
    rw [List.nodup_map_iff_inj_on List.nodup_range]
    intro s hs t ht h
    exact htm s t (List.mem_range.1 hs) (List.mem_range.1 ht) h
  have hg : ((List.range T).map tm)[a]'(by simpa using ha) = tm a := by simp
  have := hnd.idxOf_getElem a (by simpa using ha)
  rwa [hg] at this

theorem locSlice_rows {A : Type} {T : ℕ} {tm : ℕ → τ} (htm : DistinctLabels T tm) (x : ℕ → A) {a b : ℕ} (ha : a < T)
    (hb : b < T) : locSlice (rowDict T tm x) (tm a) (tm b) = (List.range (b + 1 - a)).map fun t => (tm (a + t), x (a + t)) := by
  unfold locSlice
  rw [idxOf_rows htm x ha, idxOf_rows htm x hb]
  unfold rowDict
  rw [← List.map_take, ← List.map_drop, List.take_range, Nat.min_eq_left (by omega)]
  apply List.ext_getElem
  · simp
  · intro i h1 h2
    simp

theorem causalReturns {T : ℕ} {tm : ℕ → τ} (htm : DistinctLabels T tm) (hn : 0 < n) (x : ℕ → NRow n) {a b : ℕ} (ha : a < T)
    (hb : b < T) : (shiftBack (locSlice (rowDict T tm x) (tm a) (tm b))).filterMap dropnaRow
      = (tradingDays x a b).map fun t => (tm t, rowValues (x (t + 1))) := by
  rw [locSlice_rows htm x ha hb, shiftBack_frame (fun t => tm (a + t)) (fun t => x (a + t))]
  unfold tradingDays
  by_cases hab : b < a
  · rw [Nat.sub_eq_zero_of_le hab, Nat.sub_eq_zero_of_le hab.le]; rfl
  · push Not at hab
    obtain ⟨m, rfl⟩ := Nat.exists_eq_add_of_le hab
    rw [show a + m + 1 - a = m + 1 by omega, show a + m - a = m by omega, List.range_succ, List.map_append, List.filterMap_append]
    have h1 : List.filterMap dropnaRow (List.map (fun t => (tm (a + t), if t + 1 < m + 1 then x (a + (t + 1)) else fun _ => none)) [m])
        = [] := by
      simp only [List.map_cons, List.map_nil, lt_irrefl, if_false]
      unfold dropnaRow
      rw [List.filterMap_cons, if_neg]
      · rfl
      · intro h
        have := h ⟨0, hn⟩
        simp at this
    rw [h1, List.append_nil, List.range'_eq_map_range, List.filter_map, List.map_map, List.filterMap_map]
    rw [← List.filterMap_eq_filter, List.map_filterMap]
    apply List.filterMap_congr
    intro t ht
    have ht' := List.mem_range.1 ht
    simp only [Function.comp]
    rw [if_pos (by omega)]
    unfold dropnaRow CompleteRow rowValues
    by_cases h : ∀ i, (x (a + (t + 1)) i).isSome = true
    · rw [if_pos h]
      have h' : ∀ i, (x (a + t + 1) i).isSome = true := h
      simp [h']
      rfl
    · rw [if_neg h]
      have h' : ¬ ∀ i, (x (a + t + 1) i).isSome = true := h
      simp [h']

theorem bind_ok_iff {A B : Type} (e : Except Err A) (f : A → Except Err B) (b : B) :
    (e >>= f) = .ok b ↔ ∃ a, e = .ok a ∧ f a = .ok b := by
  cases e with
  | error e => simp [Bind.bind, Except.bind]
  | ok a =>
    change f a = .ok b ↔ _
    simp

/-- `optItem` over several dates -/
theorem optItem_ok_iff {A : Type} (d : Option (Dict τ A)) (t : τ) (m : Option A) :
    optItem d t = .ok m ↔ (d = none ∧ m = none) ∨ ∃ d' a, d = some d' ∧ d'.lookup t = some a ∧ m = some a := by
  cases d with
  | none => simp [optItem, eq_comm]
  | some d =>
    unfold optItem
    simp only [bind_ok_iff, getItem_ok_iff]
    simp only [Option.some.injEq, reduceCtorEq, false_and, false_or]
    constructor
    · rintro ⟨a, h1, h2⟩
      cases h2
      exact ⟨d, a, rfl, h1, rfl⟩
    · rintro ⟨_, a, rfl, h1, rfl⟩
      exact ⟨a, h1, rfl⟩

theorem getCausal_ok_iff {T : ℕ} {tm : ℕ → τ} (htm : DistinctLabels T tm) (hn : 0 < n) (x : ℕ → NRow n) {a b : ℕ} (ha : a < T)
    (hb : b < T) (sigmas : Dict τ (Mat n)) (mus : Option (Dict τ (Vec n))) (c : Causal τ n) :
    getCausal (rowDict T tm x) sigmas (tm a) (tm b) mus = .ok c ↔
      ∃ (S : ℕ → Mat n) (m : ℕ → Vec n), (∀ t ∈ tradingDays x a b, sigmas.lookup (tm t) = some (S t)) ∧
        (∀ ms, mus = some ms → ∀ t ∈ tradingDays x a b, ms.lookup (tm t) = some (m t)) ∧
        c = { returns := (tradingDays x a b).map fun t => (tm t, rowValues (x (t + 1)))
              sigmas := (tradingDays x a b).map fun t => (tm t, S t)
              mus := mus.map fun _ => (tradingDays x a b).map fun t => (tm t, m t) } := by
  unfold getCausal
  dsimp only
  rw [causalReturns htm hn x ha hb, List.map_map]
  have e : (Prod.fst ∘ fun t => (tm t, rowValues (x (t + 1)))) = tm := rfl
  rw [e, bind_ok_iff]
  simp only [restrict_ok_iff]
  cases mus with
  | none =>
    dsimp only
    constructor
    · rintro ⟨_, ⟨S, hS, rfl⟩, h⟩
      cases h
      exact ⟨S, fun _ => 0, hS, by simp, rfl⟩
    · rintro ⟨S, m, hS, _, rfl⟩
      exact ⟨_, ⟨S, hS, rfl⟩, rfl⟩
  | some ms =>
    dsimp only
    simp only [bind_ok_iff, restrict_ok_iff]
    constructor
    · rintro ⟨_, ⟨S, hS, rfl⟩, _, ⟨m, hm, rfl⟩, h⟩
      cases h
      exact ⟨S, m, hS, fun _ h => by cases h; exact hm, rfl⟩
    · rintro ⟨S, m, hS, hm, rfl⟩
      exact ⟨_, ⟨S, hS, rfl⟩, _, ⟨m, hm ms rfl, rfl⟩, rfl⟩

theorem getCausal_error {T : ℕ} {tm : ℕ → τ} (htm : DistinctLabels T tm) (hn : 0 < n) (x : ℕ → NRow n) {a b : ℕ} (ha : a < T)
    (hb : b < T) (sigmas : Dict τ (Mat n)) (mus : Option (Dict τ (Vec n))) (e : Err)
    (h : getCausal (rowDict T tm x) sigmas (tm a) (tm b) mus = .error e) : e = .keyError := by
  unfold getCausal at h
  dsimp only at h
  cases h1 : restrict sigmas (((shiftBack (locSlice (rowDict T tm x) (tm a) (tm b))).filterMap dropnaRow).map Prod.fst) with
  | error e' =>
    rw [h1] at h
    cases h
    exact (restrict_error _ _ _ h1).1
  | ok r =>
    rw [h1] at h
    cases mus with
    | none => cases h
    | some ms =>
      dsimp only at h
      cases h2 : restrict ms (((shiftBack (locSlice (rowDict T tm x) (tm a) (tm b))).filterMap dropnaRow).map Prod.fst) with
      | error e' =>
        rw [h2] at h
        cases h
        exact (restrict_error _ _ _ h2).1
      | ok r' =>
        rw [h2] at h
        cases h

/-! ### One predictor -/

theorem traderInit_ok_iff {I : Type} (l : List I) (tm : I → τ) (S : I → Mat n) (mus : Option (Dict τ (Vec n))) (m : I → Vec n)
    (Ls : List (τ × Mat n)) :
    traderInit (l.map tm) (l.map fun t => (tm t, S t)) ((mus.map fun _ => l.map fun t => (tm t, m t)).map Dict.keys)
      = .ok Ls ↔ ∃ L : I → Mat n, (∀ t ∈ l, getLInv (S t) = .ok (L t)) ∧ Ls = l.map fun t => (tm t, L t) := by
  unfold traderInit
  have h1 : (l.map fun t => (tm t, S t)).map Prod.fst = l.map tm := by rw [List.map_map]; rfl
  have h2 : ¬ (((mus.map fun _ => l.map fun t => (tm t, m t)).map Dict.keys).isSome = true ∧
      (mus.map fun _ => l.map fun t => (tm t, m t)).map Dict.keys ≠ some (l.map tm)) := by
    rintro ⟨h3, h4⟩
    cases mus with
    | none => simp at h3
    | some ms =>
      apply h4
      simp [Dict.keys]
  rw [if_neg (not_not.2 h1.symm), if_neg h2]
  simp only [Bool.false_eq_true, if_false]
  have : Nonempty (Inhabited (τ × Mat n)) ∨ l = [] := by
    cases l with
    | nil => exact .inr rfl
    | cons a l => exact .inl ⟨⟨(tm a, 0)⟩⟩
  rcases this with hi | rfl
  · haveI := hi.some
    rw [mapM_map_ok_iff]
    constructor
    · rintro ⟨v, hv, rfl⟩
      simp only [bind_ok_iff] at hv
      refine ⟨fun t => (v t).2, fun t ht => ?_, List.map_congr_left fun t ht => ?_⟩
      · obtain ⟨L, h1, h2⟩ := hv t ht
        have : v t = (tm t, L) := (Except.ok.inj h2).symm
        dsimp only
        rw [this]
        exact h1
      · obtain ⟨L, h1, h2⟩ := hv t ht
        have : v t = (tm t, L) := (Except.ok.inj h2).symm
        dsimp only
        rw [this]
    · rintro ⟨L, hL, rfl⟩
      refine ⟨fun t => (tm t, L t), fun t ht => ?_, rfl⟩
      dsimp only
      rw [hL t ht]
      rfl
  · simp only [List.map_nil, List.mapM_nil]
    constructor
    · intro h; cases h; exact ⟨fun _ => 0, by simp, rfl⟩
    · rintro ⟨_, _, rfl⟩; rfl

theorem rhosAt_ok_iff {I : Type} (rhos : Option (Dict τ (Vec n))) (l : List I) (tm : I → τ) (r : List (Option (Vec n))) :
    rhosAt rhos (l.map tm) = .ok r ↔ ∃ v : I → Option (Vec n), (∀ t ∈ l, optItem rhos (tm t) = .ok (v t)) ∧ r = l.map v := by
  cases rhos with
  | none =>
    unfold rhosAt optItem
    dsimp only
    constructor
    · intro h
      cases h
      exact ⟨fun _ => none, fun _ _ => rfl, by rw [List.map_map]; rfl⟩
    · rintro ⟨v, hv, rfl⟩
      rw [List.map_map]
      congr 1
      exact List.map_congr_left fun t ht => Except.ok.inj (hv t ht)
  | some d =>
    unfold rhosAt
    dsimp only
    simp only [bind_ok_iff, restrict_ok_iff, optItem_ok_iff]
    constructor
    · rintro ⟨_, ⟨v, hv, rfl⟩, h⟩
      cases h
      exact ⟨fun t => some (v t), fun t ht => .inr ⟨d, v t, rfl, hv t ht, rfl⟩, by rw [List.map_map]; rfl⟩
    · rintro ⟨v, hv, rfl⟩
      refine ⟨_, ⟨fun t => (v t).getD 0, fun t ht => ?_, rfl⟩, ?_⟩
      · rcases hv t ht with ⟨h, _⟩ | ⟨d', a, h, h2, h3⟩
        · cases h
        · cases h; dsimp only; rw [h3]; exact h2
      · rw [List.map_map]
        refine congrArg Except.ok (List.map_congr_left fun t ht => ?_)
        rcases hv t ht with ⟨h, _⟩ | ⟨d', a, h, h2, h3⟩
        · cases h
        · change some ((v t).getD 0) = v t
          rw [h3]; rfl

theorem dayData_map {I : Type} (l : List I) (tm : I → τ) (r S L : I → _) (mus : Option (Dict τ (Vec n))) (m : I → Vec n)
    (rho : I → Option (Vec n)) :
    dayData ({ returns := l.map r, sigmas := l.map fun t => (tm t, S t),
               mus := mus.map fun _ => l.map fun t => (tm t, m t) } : Causal τ n)
        (l.map fun t => (tm t, L t)) (l.map rho)
      = l.map fun t => (⟨S t, L t, mus.map fun _ => m t, rho t⟩ : DayData n) := by
  unfold dayData muRows
  cases mus with
  | none =>
    apply List.ext_getElem
    · simp
    · intro i h1 h2; simp
  | some ms =>
    apply List.ext_getElem
    · simp
    · intro i h1 h2; simp

/-- **One predictor**: the run goes through exactly if there is a trading day and every trading day has an outcome; then
the trader holds, for every trading day, the return of the next row, the covariance and the weights of that day. -/
theorem backtestOne_ok_iff {T : ℕ} {tm : ℕ → τ} (htm : DistinctLabels T tm) (hn : 0 < n) (x : ℕ → NRow n) {a b : ℕ} (ha : a < T)
    (hb : b < T) (cvx : Cvx n) (st : Strategy τ n) (bt : Backtest τ n) (hr : bt.returns = rowDict T tm x)
    (hs : bt.startDate = tm a) (he : bt.endDate = tm b) (sigmas : Dict τ (Mat n)) (mus : Option (Dict τ (Vec n)))
    (tr : DatedTrader τ n) :
    backtestOne cvx st bt sigmas mus = .ok tr ↔ tradingDays x a b ≠ [] ∧
      ∃ (S : ℕ → Mat n) (W : ℕ → List ℝ), (∀ t ∈ tradingDays x a b, sigmas.lookup (tm t) = some (S t) ∧
          dayOutcome cvx st sigmas mus (tm t) = .ok (W t)) ∧
        tr = { dates := (tradingDays x a b).map tm
               trader := { returns := (tradingDays x a b).map fun t => rowValues (x (t + 1))
                           sigmas := (tradingDays x a b).map S
                           portfolioType := st.ptype
                           adjustFactor := 1
                           ws := (tradingDays x a b).map W } } := by
  unfold backtestOne
  rw [bind_ok_iff, hr, hs, he]
  simp only [getCausal_ok_iff htm hn x ha hb]
  have e1 : ∀ (S : ℕ → Mat n) (m : ℕ → Vec n), ((tradingDays x a b).map fun t => (tm t, rowValues (x (t + 1)))).map Prod.fst
      = (tradingDays x a b).map tm := fun S m => by rw [List.map_map]; rfl
  constructor
  · rintro ⟨_, ⟨S, m, hS, hm, rfl⟩, h⟩
    dsimp only at h
    rw [e1 S m] at h
    split_ifs at h with h0
    simp only [bind_ok_iff, traderInit_ok_iff, rhosAt_ok_iff] at h
    obtain ⟨_, ⟨L, hL, rfl⟩, _, ⟨rho, hrho, rfl⟩, ws, hws, h⟩ := h
    rw [dayData_map, mapM_map_ok_iff] at hws
    obtain ⟨W, hW, rfl⟩ := hws
    refine ⟨by simpa using h0, S, W, fun t ht => ⟨hS t ht, ?_⟩, ?_⟩
    · unfold dayOutcome
      rw [(getItem_ok_iff _ _ _).2 (hS t ht)]
      have hmu : optItem mus (tm t) = .ok (mus.map fun _ => m t) := by
        rw [optItem_ok_iff]
        cases mus with
        | none => exact .inl ⟨rfl, rfl⟩
        | some ms => exact .inr ⟨ms, m t, rfl, hm ms rfl t ht, rfl⟩
      simp only [bind_ok_iff]
      exact ⟨_, rfl, _, hmu, _, hL t ht, _, hrho t ht, hW t ht⟩
    · have := (Except.ok.inj h).symm
      rw [this]
      simp only [List.map_map]
      rfl
  · rintro ⟨h0, S, W, hSW, rfl⟩
    have hS := fun t ht => (hSW t ht).1
    have hout : ∀ t ∈ tradingDays x a b, ∃ (mu : Option (Vec n)) (L : Mat n) (rho : Option (Vec n)),
        optItem mus (tm t) = .ok mu ∧ getLInv (S t) = .ok L ∧ optItem st.rhos (tm t) = .ok rho ∧
        dayWeights cvx st ⟨S t, L, mu, rho⟩ = .ok (W t) := by
      intro t ht
      have h := (hSW t ht).2
      unfold dayOutcome at h
      simp only [bind_ok_iff] at h
      obtain ⟨S', h1, mu, h2, L, h3, rho, h4, h5⟩ := h
      rw [getItem_ok_iff, hS t ht] at h1
      cases h1
      exact ⟨mu, L, rho, h2, h3, h4, h5⟩
    choose! mu L rho h2 h3 h4 h5 using hout
    refine ⟨_, ⟨S, fun t => (mu t).getD 0, hS, ?_, rfl⟩, ?_⟩
    · rintro ms rfl t ht
      rcases (optItem_ok_iff _ _ _).1 (h2 t ht) with ⟨h, _⟩ | ⟨d', v, h, h6, h7⟩
      · cases h
      · cases h; dsimp only; rw [h7]; exact h6
    · dsimp only
      rw [e1 S (fun t => (mu t).getD 0), if_neg (by simpa using h0)]
      simp only [bind_ok_iff, traderInit_ok_iff, rhosAt_ok_iff]
      refine ⟨_, ⟨L, h3, rfl⟩, _, ⟨rho, h4, rfl⟩, (tradingDays x a b).map W, ?_, ?_⟩
      · rw [dayData_map, mapM_map_ok_iff]
        refine ⟨W, fun t ht => ?_, rfl⟩
        have : (mus.map fun _ => (mu t).getD 0) = mu t := by
          rcases (optItem_ok_iff _ _ _).1 (h2 t ht) with ⟨rfl, h⟩ | ⟨d', v, rfl, h6, h7⟩
          · rw [h]; rfl
          · rw [h7]; rfl
        rw [this]
        exact h5 t ht
      · simp only [List.map_map]
        rfl

end CovPred
