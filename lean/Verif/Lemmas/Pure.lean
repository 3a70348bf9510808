import Verif.Lemmas.Inv
import Verif.Lemmas.General

/-
`iteratedEwma` as a composition of total stages, for any scalar type (no arithmetic laws, so also for floating
point), and how the stages treat row labels.
-/
set_option linter.unusedSectionVars false
namespace CovPred
open Scalar

variable {τ ι κ : Type} [DecidableEq τ] [Ix ι] [Ix κ] {α : Type} [Scalar α]

/-- `general` without its exceptions -/
def general0 (beta : α) (fct : Arr ι α → Arr κ α) (mp : Int) (cl : Option α) : Frame τ ι α → Frame τ κ α
  | [] => []
  | (t, row) :: rest => (t, maskWarmup mp 0 (fct row)) :: generalLoop beta fct mp cl 1 (fct row) rest

theorem general_eq {hl al : Option α} {beta : α} (hb : decay hl al = .ok beta) (fct : Arr ι α → Arr κ α) (mp : Int)
    (cl : Option α) (f : Frame τ ι α) :
    general f hl al fct mp cl = if f = [] then .error .indexError else .ok (general0 beta fct mp cl f) := by
  unfold general
  rw [hb]
  cases f with
  | nil => rfl
  | cons p f => rfl

/-- the decay of a number -/
def beta (h : α) : α := 1 - (1 - exp (-(log (lit 2)) / h))

theorem decay_some {h : α} (hh : isZero h = false) (al : Option α) : decay (some h) al = .ok (beta h) := by
  have : truthy (some h) = some h := by simp [truthy, hh]
  unfold decay
  rw [this]
  rfl

theorem decay_zero {h : α} (hh : isZero h = true) : decay (some h) none = .error Err.typeError := by
  have : truthy (some h) = none := by simp [truthy, hh]
  unfold decay
  rw [this]

/-- rows that are not entirely `nan` -/
def keep (f : Frame τ κ α) : Frame τ κ α := f.filter fun p => !(p.2.all isNaN)

def ewmaMean0 (f : Frame τ ι α) (h : α) (mp : Int) (cl : Option α) : Frame τ ι α :=
  keep (general0 (beta h) (fun x => x) mp cl f)

def ewmaCov0 (f : Frame τ ι α) (h : α) (mp : Int) : Frame τ (ι × ι) α :=
  keep (general0 (beta h) outer mp none f)

def volatility0 (f : Frame τ ι α) (h : α) (mp : Int) (cl : Option α) : Frame τ ι α :=
  (ewmaMean0 (f.mapVals fun x => npow x 2) h mp ((truthy cl).map fun c => npow c 2)).mapVals sqrt

def center0 (f : Frame τ ι α) (h : α) (mp : Int) (mean : Bool) : Frame τ ι α × Frame τ ι α :=
  if mean then
    (keep (Frame.alignWith (· - ·) f (ewmaMean0 f h mp none)), ewmaMean0 f h mp none)
  else (f, f.mapVals fun x => 0 * x)

theorem ewmaMean_eq0 {h : α} (hh : isZero h = false) (f : Frame τ ι α) (mp : Int) (cl : Option α) :
    ewmaMean f h mp cl = if f = [] then .error .indexError else .ok (ewmaMean0 f h mp cl) := by
  unfold ewmaMean
  rw [general_eq (decay_some hh none)]
  split <;> rfl

theorem ewmaCov_eq0 {h : α} (hh : isZero h = false) (f : Frame τ ι α) (mp : Int) :
    ewmaCov f h mp = if f = [] then .error .indexError else .ok (ewmaCov0 f h mp) := by
  unfold ewmaCov
  rw [general_eq (decay_some hh none)]
  split <;> rfl

theorem mapVals_eq_nil (g : α → α) (f : Frame τ ι α) : f.mapVals g = [] ↔ f = [] := List.map_eq_nil_iff

theorem volatility_eq0 {h : α} (hh : isZero h = false) (f : Frame τ ι α) (mp : Int) (cl : Option α) :
    volatility f h mp cl = if f = [] then .error .indexError else .ok (volatility0 f h mp cl) := by
  unfold volatility variance
  simp only []
  rw [ewmaMean_eq0 hh]
  simp only [mapVals_eq_nil]
  split <;> rfl

theorem center_eq0 {h : α} (hh : isZero h = false) (f : Frame τ ι α) (mp : Int) (mean : Bool) :
    center f h mp mean = if mean = true ∧ f = [] then .error .indexError else .ok (center0 f h mp mean) := by
  unfold center center0
  cases mean with
  | false => simp
  | true =>
    simp only [if_true, true_and]
    rw [ewmaMean_eq0 hh]
    split <;> rfl

/-- half-lives of the two means -/
def mu1 (a : IewmaArgs α) : α := (truthy a.muHalflife1).getD a.volaHalflife
def mu2 (a : IewmaArgs α) : α := (truthy a.muHalflife2).getD a.covHalflife

theorem truthy_getD_ne {o : Option α} {d : α} (hd : isZero d = false) : isZero ((truthy o).getD d) = false := by
  cases o with
  | none => exact hd
  | some c =>
    cases h : isZero c with
    | true => simpa [truthy, h] using hd
    | false => simpa [truthy, h] using h

/-! the stages -/
def retOf (f : Frame τ ι α) (a : IewmaArgs α) : Frame τ ι α := (center0 (filled f a) (mu1 a) 0 a.mean).1
def rmOf (f : Frame τ ι α) (a : IewmaArgs α) : Frame τ ι α := (center0 (filled f a) (mu1 a) 0 a.mean).2
def volOf (f : Frame τ ι α) (a : IewmaArgs α) : Frame τ ι α :=
  volatility0 (retOf f a) a.volaHalflife a.minPeriodsVola a.clipAt
def adjOf (f : Frame τ ι α) (a : IewmaArgs α) : Frame τ ι α :=
  (clip (Frame.alignWith (· / ·) (retOf f a) (volOf f a)) a.clipAt).fillna0
def cadjOf (f : Frame τ ι α) (a : IewmaArgs α) : Frame τ ι α := (center0 (adjOf f a) (mu2 a) 0 a.mean).1
def amOf (f : Frame τ ι α) (a : IewmaArgs α) : Frame τ ι α := (center0 (adjOf f a) (mu2 a) 0 a.mean).2
def covOf (f : Frame τ ι α) (a : IewmaArgs α) : Frame τ (ι × ι) α := ewmaCov0 (cadjOf f a) a.covHalflife a.minPeriodsCov

/-- a lookup that cannot fail -/
def locD (f : Frame τ ι α) (t : τ) : Arr ι α := (f.loc? t).getD (Arr.ofFn fun _ => nan)

def item0 (mean : Bool) (vola rm am : Frame τ ι α) (t : τ) (M : Arr (ι × ι) α) : IEWMA τ ι α where
  time := t
  mean := if mean then scaleMean (locD vola t) (locD rm t) (locD am t) else Arr.ofFn fun _ => 0
  covariance := scaleCov (locD vola t) M
  volatility := locD vola t

def pureRun (f : Frame τ ι α) (a : IewmaArgs α) : List (IEWMA τ ι α) :=
  (covOf f a).map fun p => item0 a.mean (volOf f a) (rmOf f a) (amOf f a) p.1 p.2

/-! ### labels -/

theorem index_generalLoop (beta : α) (fct : Arr ι α → Arr κ α) (mp : Int) (cl : Option α) (n : ℕ) (e : Arr κ α)
    (f : Frame τ ι α) : (generalLoop beta fct mp cl n e f).map Prod.fst = f.map Prod.fst := by
  induction f generalizing n e with
  | nil => rfl
  | cons p f ih => obtain ⟨t, row⟩ := p; simp [generalLoop, ih]

theorem index_general0 (beta : α) (fct : Arr ι α → Arr κ α) (mp : Int) (cl : Option α) (f : Frame τ ι α) :
    (general0 beta fct mp cl f).map Prod.fst = f.map Prod.fst := by
  cases f with
  | nil => rfl
  | cons p f => obtain ⟨t, row⟩ := p; simp [general0, index_generalLoop]

theorem index_mapVals {β : Type} (g : α → β) (f : Frame τ ι α) : (f.mapVals g).map Prod.fst = f.map Prod.fst := by
  unfold Frame.mapVals
  rw [List.map_map]; rfl

theorem index_align (op : α → α → α) (f g : Frame τ ι α) :
    (Frame.alignWith op f g).map Prod.fst = f.map Prod.fst := by
  unfold Frame.alignWith
  rw [List.map_map]; rfl

theorem index_keep (f : Frame τ κ α) : ((keep f).map Prod.fst).Sublist (f.map Prod.fst) :=
  List.filter_sublist.map _

theorem index_clip (f : Frame τ ι α) (cl : Option α) : ((clip f cl).map Prod.fst).Sublist (f.map Prod.fst) := by
  unfold clip
  cases truthy cl with
  | none => exact index_keep f
  | some c =>
    have := index_keep (f.mapVals (pdClip c))
    rwa [index_mapVals] at this

theorem index_volatility0 (f : Frame τ ι α) (h : α) (mp : Int) (cl : Option α) :
    ((volatility0 f h mp cl).map Prod.fst).Sublist (f.map Prod.fst) := by
  unfold volatility0 ewmaMean0
  rw [index_mapVals]
  have := index_keep (general0 (beta h) (fun x => x) mp ((truthy cl).map fun c => npow c 2)
    (f.mapVals fun x => npow x 2))
  rwa [index_general0, index_mapVals] at this

theorem index_center0 (f : Frame τ ι α) (h : α) (mp : Int) (mean : Bool) :
    ((center0 f h mp mean).1.map Prod.fst).Sublist (f.map Prod.fst) := by
  unfold center0
  cases mean with
  | false => simp
  | true =>
    have := index_keep (Frame.alignWith (· - ·) f (ewmaMean0 f h mp none))
    rwa [index_align] at this

theorem index_fillna0 (f : Frame τ ι α) : f.fillna0.map Prod.fst = f.map Prod.fst := index_mapVals _ f

theorem index_filled (f : Frame τ ι α) (a : IewmaArgs α) : (filled f a).map Prod.fst = f.map Prod.fst := by
  unfold filled
  split
  · split
    · exact index_fillna0 f
    · rfl
  · rfl

theorem index_ret (f : Frame τ ι α) (a : IewmaArgs α) : ((retOf f a).map Prod.fst).Sublist (f.map Prod.fst) := by
  have := index_center0 (filled f a) (mu1 a) 0 a.mean
  rwa [index_filled] at this

theorem index_adj (f : Frame τ ι α) (a : IewmaArgs α) :
    ((adjOf f a).map Prod.fst).Sublist ((retOf f a).map Prod.fst) := by
  unfold adjOf
  rw [index_fillna0]
  have := index_clip (Frame.alignWith (· / ·) (retOf f a) (volOf f a)) a.clipAt
  rwa [index_align] at this

theorem index_cadj (f : Frame τ ι α) (a : IewmaArgs α) :
    ((cadjOf f a).map Prod.fst).Sublist ((adjOf f a).map Prod.fst) := index_center0 _ _ _ _

theorem index_cov (f : Frame τ ι α) (a : IewmaArgs α) :
    ((covOf f a).map Prod.fst).Sublist ((cadjOf f a).map Prod.fst) := by
  unfold covOf ewmaCov0
  have := index_keep (general0 (beta a.covHalflife) outer a.minPeriodsCov none (cadjOf f a))
  rwa [index_general0] at this

theorem index_run (f : Frame τ ι α) (a : IewmaArgs α) :
    ((pureRun f a).map IEWMA.time).Sublist (f.map Prod.fst) := by
  have : (pureRun f a).map IEWMA.time = (covOf f a).map Prod.fst := by
    unfold pureRun
    rw [List.map_map]; rfl
  rw [this]
  exact (index_cov f a).trans ((index_cadj f a).trans ((index_adj f a).trans (index_ret f a)))

/-! ### lookups succeed -/

theorem loc_isSome (f : Frame τ ι α) (t : τ) : (f.loc? t).isSome = true ↔ t ∈ f.map Prod.fst := by
  unfold Frame.loc?
  induction f with
  | nil => simp
  | cons p f ih =>
    obtain ⟨s, r⟩ := p
    rw [List.lookup_cons]
    cases h : (t == s) with
    | true => simp [beq_iff_eq.mp h]
    | false =>
      have : t ≠ s := fun e => by simp [e] at h
      simp [ih, this]

/-- a row kept after alignment had a partner -/
theorem keep_align (hnan : isNaN (nan : α) = true) {op : α → α → α} {f g : Frame τ ι α} {t : τ}
    (h : t ∈ (keep (Frame.alignWith op f g)).map Prod.fst) : t ∈ g.map Prod.fst := by
  obtain ⟨p, hp, rfl⟩ := List.mem_map.mp h
  unfold keep at hp
  rw [List.mem_filter] at hp
  obtain ⟨hp, hk⟩ := hp
  unfold Frame.alignWith at hp
  obtain ⟨q, hq, rfl⟩ := List.mem_map.mp hp
  rw [← loc_isSome]
  by_contra hcon
  have : g.loc? q.1 = none := by simpa using hcon
  simp only [this] at hk
  have : (Arr.ofFn (fun _ : ι => (nan : α))).all isNaN = true := by
    rw [Arr.all_iff]; intro i; rw [Arr.get_ofFn]; exact hnan
  simp [this] at hk

theorem clip_align (hnan : isNaN (nan : α) = true) {op : α → α → α} {f g : Frame τ ι α} {cl : Option α} {t : τ}
    (h : t ∈ (clip (Frame.alignWith op f g) cl).map Prod.fst) : t ∈ g.map Prod.fst := by
  unfold clip at h
  cases hc : truthy cl with
  | none => rw [hc] at h; exact keep_align hnan h
  | some c =>
    rw [hc] at h
    simp only [] at h
    obtain ⟨p, hp, rfl⟩ := List.mem_map.mp h
    unfold Frame.dropnaAll at hp
    rw [List.mem_filter] at hp
    obtain ⟨hp, hk⟩ := hp
    unfold Frame.mapVals Frame.alignWith at hp
    rw [List.map_map] at hp
    obtain ⟨q, hq, rfl⟩ := List.mem_map.mp hp
    rw [← loc_isSome]
    by_contra hcon
    simp only [Function.comp] at hk hcon
    have : g.loc? q.1 = none := by simpa using hcon
    simp only [this] at hk
    have : ((Arr.ofFn (fun _ : ι => (nan : α))).map (pdClip c)).all isNaN = true := by
      rw [Arr.all_iff]; intro i; rw [Arr.get_map, Arr.get_ofFn]
      unfold pdClip
      simp [hnan]
    simp [this] at hk

theorem center0_mean_mem (hnan : isNaN (nan : α) = true) {f : Frame τ ι α} {h : α} {mp : Int} {mean : Bool} {t : τ}
    (ht : t ∈ (center0 f h mp mean).1.map Prod.fst) : t ∈ (center0 f h mp mean).2.map Prod.fst := by
  unfold center0 at *
  cases mean with
  | false => simp only [Bool.false_eq_true, if_false] at *; rw [index_mapVals]; exact ht
  | true => simp only [if_true] at *; exact keep_align hnan ht

theorem mem_vol_of_adj (hnan : isNaN (nan : α) = true) {f : Frame τ ι α} {a : IewmaArgs α} {t : τ}
    (ht : t ∈ (adjOf f a).map Prod.fst) : t ∈ (volOf f a).map Prod.fst := by
  unfold adjOf at ht
  rw [index_fillna0] at ht
  exact clip_align hnan ht

theorem locE_eq {f : Frame τ ι α} {t : τ} (ht : t ∈ f.map Prod.fst) : locE f t = .ok (locD f t) := by
  unfold locE locD
  have := (loc_isSome f t).mpr ht
  cases h : f.loc? t with
  | none => rw [h] at this; cases this
  | some r => rfl

theorem iewmaItem_eq {mean : Bool} {vola rm am : Frame τ ι α} {t : τ} (M : Arr (ι × ι) α)
    (hv : t ∈ vola.map Prod.fst) (h1 : t ∈ rm.map Prod.fst) (h2 : t ∈ am.map Prod.fst) :
    iewmaItem mean vola rm am t M = .ok (item0 mean vola rm am t M) := by
  unfold iewmaItem
  rw [locE_eq hv, locE_eq h1, locE_eq h2]
  cases mean <;> rfl

theorem mapM_okP {A B E : Type} {k : A → Except E B} {g : A → B} {l : List A} (h : ∀ x ∈ l, k x = .ok (g x)) :
    l.mapM k = .ok (l.map g) := by
  induction l with
  | nil => rfl
  | cons x l ih =>
    rw [List.mapM_cons, h x (by simp), ih (fun y hy => h y (by simp [hy]))]; rfl

theorem nil_of_sublist {A : Type} {f g : List (τ × A)} {B : Type} {h : List (τ × B)}
    (hs : (h.map Prod.fst).Sublist (g.map Prod.fst)) (hg : g = []) : h = [] := by
  subst hg
  simpa using hs

theorem adj_nil {f : Frame τ ι α} {a : IewmaArgs α} (h : retOf f a = []) : adjOf f a = [] :=
  nil_of_sublist (f := []) (index_adj f a) h

/-- The whole run: an `IndexError` if no row reaches the covariance stage, otherwise the results. -/
theorem run_eq (hnan : isNaN (nan : α) = true) (f : Frame τ ι α) (a : IewmaArgs α)
    (h1 : isZero a.volaHalflife = false) (h2 : isZero a.covHalflife = false) :
    iteratedEwma f a = if cadjOf f a = [] then .error .indexError else .ok (pureRun f a) := by
  rw [iteratedEwma_steps]
  rw [center_eq0 (truthy_getD_ne h1)]
  by_cases hf : a.mean = true ∧ filled f a = []
  · rw [if_pos hf, if_pos]
    · rfl
    · apply nil_of_sublist (f := []) (index_cadj f a)
      apply adj_nil
      have := index_center0 (filled f a) (mu1 a) 0 a.mean
      exact nil_of_sublist (f := []) this hf.2
  · rw [if_neg hf]
    simp only [Except.bind]
    rw [volatility_eq0 h1]
    have e1 : center0 (filled f a) ((truthy a.muHalflife1).getD a.volaHalflife) 0 a.mean = (retOf f a, rmOf f a) := rfl
    rw [e1]
    have e2 : volatility0 (retOf f a) a.volaHalflife a.minPeriodsVola a.clipAt = volOf f a := rfl
    simp only [e2]
    by_cases hr : retOf f a = []
    · rw [if_pos hr, if_pos]
      exact nil_of_sublist (f := []) (index_cadj f a) (adj_nil hr)
    · rw [if_neg hr]
      simp only []
      rw [center_eq0 (truthy_getD_ne h2)]
      have e3 : (clip (Frame.alignWith (fun x1 x2 => x1 / x2) (retOf f a) (volOf f a)) a.clipAt).fillna0 = adjOf f a := rfl
      have e4 : center0 (adjOf f a) ((truthy a.muHalflife2).getD a.covHalflife) 0 a.mean = (cadjOf f a, amOf f a) := rfl
      rw [e3, e4]
      by_cases ha : a.mean = true ∧ adjOf f a = []
      · rw [if_pos ha, if_pos]
        exact nil_of_sublist (f := []) (index_cadj f a) ha.2
      · rw [if_neg ha]
        simp only []
        rw [ewmaCov_eq0 h2]
        by_cases hc : cadjOf f a = []
        · rw [if_pos hc, if_pos hc]
        · rw [if_neg hc, if_neg hc]
          simp only []
          apply mapM_okP
          intro p hp
          have hp1 : p.1 ∈ (cadjOf f a).map Prod.fst := (index_cov f a).subset (List.mem_map_of_mem hp)
          have hp2 := (index_cadj f a).subset hp1
          have hp3 := (index_adj f a).subset hp2
          exact iewmaItem_eq p.2 (mem_vol_of_adj hnan hp2) (center0_mean_mem hnan hp3) (center0_mean_mem hnan hp1)

theorem run_zero (f : Frame τ ι α) (a : IewmaArgs α)
    (h : isZero a.volaHalflife = true ∨ isZero a.covHalflife = true) :
    iteratedEwma f a = .error .typeError ∨ iteratedEwma f a = .error .indexError := by
  have hgen : ∀ {κ : Type} [Ix κ] (g : Frame τ ι α) (h : α) (fct : Arr ι α → Arr κ α) (mp : Int) (cl : Option α),
      (isZero h = true ∧ general g (some h) none fct mp cl = .error .typeError) ∨
      (isZero h = false ∧ (general g (some h) none fct mp cl = .error .indexError ∨
        ∃ r, general g (some h) none fct mp cl = .ok r)) := by
    intro κ _ g h fct mp cl
    cases hz : isZero h with
    | true =>
      left; refine ⟨rfl, ?_⟩
      unfold general; rw [decay_zero hz]
    | false =>
      right; refine ⟨rfl, ?_⟩
      rw [general_eq (decay_some hz none)]
      split
      · left; rfl
      · right; exact ⟨_, rfl⟩
  have hcen : ∀ (g : Frame τ ι α) (h : α) (mp : Int) (mean : Bool),
      center g h mp mean = .error .typeError ∨ center g h mp mean = .error .indexError ∨
        ∃ r, center g h mp mean = .ok r := by
    intro g h mp mean
    unfold center
    cases mean with
    | false => right; right; exact ⟨_, rfl⟩
    | true =>
      simp only [if_true, ewmaMean]
      rcases hgen g h (fun x => x) mp none with ⟨_, e⟩ | ⟨_, e | ⟨r, e⟩⟩
      · left; rw [e]; rfl
      · right; left; rw [e]; rfl
      · right; right; rw [e]; exact ⟨_, rfl⟩
  rw [iteratedEwma_steps]
  rcases hcen (filled f a) ((truthy a.muHalflife1).getD a.volaHalflife) 0 a.mean with e | e | ⟨cm, e⟩
  · left; rw [e]; rfl
  · right; rw [e]; rfl
  rw [e]
  simp only [Except.bind, volatility, variance, ewmaMean]
  rcases hgen (Frame.mapVals (fun x => npow x 2) cm.1) a.volaHalflife (fun x => x) a.minPeriodsVola
    ((truthy a.clipAt).map fun c => npow c 2) with ⟨_, e⟩ | ⟨hz, e | ⟨r, e⟩⟩
  · left; rw [e]; rfl
  · right; rw [e]; rfl
  rw [e]
  simp only [Except.map]
  rcases hcen _ ((truthy a.muHalflife2).getD a.covHalflife) 0 a.mean with e | e | ⟨am, e⟩
  · left; rw [e]
  · right; rw [e]
  rw [e]
  simp only [ewmaCov]
  have hz2 : isZero a.covHalflife = true := by
    rcases h with h | h
    · rw [hz] at h; cases h
    · exact h
  rcases hgen am.1 a.covHalflife outer a.minPeriodsCov none with ⟨_, e⟩ | ⟨hz, _⟩
  · left; rw [e]; rfl
  · rw [hz] at hz2; cases hz2

/-! ### appending rows -/

/-- `g'` extends `g` by rows with labels in `L`, and `g` has no label in `L` -/
def Ext (L : List τ) {κ : Type} [Ix κ] (g g' : Frame τ κ α) : Prop :=
  (∃ h : Frame τ κ α, g' = g ++ h ∧ ∀ t ∈ h.map Prod.fst, t ∈ L) ∧ ∀ t ∈ g.map Prod.fst, t ∉ L

theorem generalLoop_append (beta : α) (fct : Arr ι α → Arr κ α) (mp : Int) (cl : Option α) (n : ℕ) (E : Arr κ α)
    (f e : Frame τ ι α) : ∃ h, generalLoop beta fct mp cl n E (f ++ e) = generalLoop beta fct mp cl n E f ++ h ∧
      h.map Prod.fst = e.map Prod.fst := by
  induction f generalizing n E with
  | nil => exact ⟨_, rfl, index_generalLoop ..⟩
  | cons p f ih =>
    obtain ⟨t, row⟩ := p
    obtain ⟨h, hh, hl⟩ := ih (n + 1) (ewmaUpdate beta mp cl n E (fct row))
    exact ⟨h, by simp only [List.cons_append, generalLoop, hh], hl⟩

theorem Ext.general0 {L : List τ} {f f' : Frame τ ι α} (hx : Ext L f f') (beta : α) (fct : Arr ι α → Arr κ α)
    (mp : Int) (cl : Option α) : Ext L (general0 beta fct mp cl f) (general0 beta fct mp cl f') := by
  obtain ⟨⟨e, rfl, he⟩, hf⟩ := hx
  refine ⟨?_, by rw [index_general0]; exact hf⟩
  cases f with
  | nil => exact ⟨CovPred.general0 beta fct mp cl e, rfl, by rw [index_general0]; exact he⟩
  | cons p f =>
    obtain ⟨t, row⟩ := p
    obtain ⟨h, hh, hl⟩ := generalLoop_append beta fct mp cl 1 (fct row) f e
    exact ⟨h, by simp only [List.cons_append, CovPred.general0, hh], by rw [hl]; exact he⟩

theorem Ext.keep {L : List τ} {f f' : Frame τ ι α} (hx : Ext L f f') : Ext L (keep f) (keep f') := by
  obtain ⟨⟨e, rfl, he⟩, hf⟩ := hx
  refine ⟨⟨CovPred.keep e, List.filter_append .., fun t ht => he t ((index_keep e).subset ht)⟩,
    fun t ht => hf t ((index_keep f).subset ht)⟩

theorem Ext.mapVals {L : List τ} {f f' : Frame τ ι α} (hx : Ext L f f') (g : α → α) :
    Ext L (f.mapVals g) (f'.mapVals g) := by
  obtain ⟨⟨e, rfl, he⟩, hf⟩ := hx
  exact ⟨⟨e.mapVals g, List.map_append .., by rw [index_mapVals]; exact he⟩, by rw [index_mapVals]; exact hf⟩

theorem loc_append (g h : Frame τ ι α) (t : τ) : (g ++ h).loc? t = (g.loc? t).or (h.loc? t) := by
  unfold Frame.loc?
  rw [List.lookup_append]

theorem loc_none {h : Frame τ ι α} {t : τ} (ht : t ∉ h.map Prod.fst) : h.loc? t = none := by
  rw [← loc_isSome] at ht
  simpa using ht

theorem Ext.align {L : List τ} {f f' g g' : Frame τ ι α} (hx : Ext L f f') (hg : Ext L g g') (op : α → α → α) :
    Ext L (Frame.alignWith op f g) (Frame.alignWith op f' g') := by
  obtain ⟨⟨e, rfl, he⟩, hf⟩ := hx
  obtain ⟨⟨d, rfl, hd⟩, _⟩ := hg
  refine ⟨⟨Frame.alignWith op e (g ++ d), ?_, by rw [index_align]; exact he⟩, by rw [index_align]; exact hf⟩
  unfold Frame.alignWith
  rw [List.map_append]
  congr 1
  apply List.map_congr_left
  intro p hp
  have : p.1 ∉ d.map Prod.fst := fun h => hf p.1 (List.mem_map_of_mem hp) (hd _ h)
  rw [loc_append, loc_none this, Option.or_none]

theorem Ext.clip {L : List τ} {f f' : Frame τ ι α} (hx : Ext L f f') (cl : Option α) :
    Ext L (clip f cl) (clip f' cl) := by
  unfold CovPred.clip
  cases truthy cl with
  | none => exact hx.keep
  | some c => exact (hx.mapVals _).keep

theorem Ext.ewmaMean0 {L : List τ} {f f' : Frame τ ι α} (hx : Ext L f f') (h : α) (mp : Int) (cl : Option α) :
    Ext L (ewmaMean0 f h mp cl) (ewmaMean0 f' h mp cl) := (hx.general0 _ _ _ _).keep

theorem Ext.center {L : List τ} {f f' : Frame τ ι α} (hx : Ext L f f') (h : α) (mp : Int) (mean : Bool) :
    Ext L (center0 f h mp mean).1 (center0 f' h mp mean).1 ∧
    Ext L (center0 f h mp mean).2 (center0 f' h mp mean).2 := by
  unfold center0
  cases mean with
  | false => exact ⟨hx, hx.mapVals _⟩
  | true => exact ⟨(hx.align (hx.ewmaMean0 _ _ _) _).keep, hx.ewmaMean0 _ _ _⟩

theorem fillna0_self {f : Frame τ ι α} (h : f.hasNaN = false) : f.fillna0 = f := by
  unfold Frame.fillna0 Frame.mapVals
  conv_rhs => rw [← List.map_id f]
  apply List.map_congr_left
  intro p hp
  unfold Frame.hasNaN at h
  rw [List.any_eq_false] at h
  have := h p hp
  simp only [Bool.not_eq_true, Bool.not_eq_false'] at this
  rw [Arr.all_iff] at this
  obtain ⟨t, r⟩ := p
  simp only [id]
  congr 1
  ext i
  rw [Arr.get_map]
  have := this i
  rw [if_neg (by simpa using this)]

theorem filled_eq (f : Frame τ ι α) (a : IewmaArgs α) : filled f a = if a.nanToNum then f.fillna0 else f := by
  unfold filled
  split
  · split
    · rfl
    · next h => rw [fillna0_self (by simpa using h)]
  · rfl

theorem Ext.filled {L : List τ} {f f' : Frame τ ι α} (hx : Ext L f f') (a : IewmaArgs α) :
    Ext L (filled f a) (filled f' a) := by
  rw [filled_eq, filled_eq]
  split
  · exact hx.mapVals _
  · exact hx

theorem Ext.loc {L : List τ} {f f' : Frame τ ι α} (hx : Ext L f f') {t : τ} (ht : t ∉ L) : locD f' t = locD f t := by
  obtain ⟨⟨e, rfl, he⟩, _⟩ := hx
  unfold locD
  rw [loc_append, loc_none (fun h => ht (he t h)), Option.or_none]

/-- no look-ahead, for the total run -/
theorem pureRun_ext {L : List τ} {f f' : Frame τ ι α} (hx : Ext L f f') (a : IewmaArgs α) :
    ∃ rs, pureRun f' a = pureRun f a ++ rs ∧ ∀ r ∈ rs, r.time ∈ L := by
  have hc := (hx.filled a).center (mu1 a) 0 a.mean
  have hret : Ext L (retOf f a) (retOf f' a) := hc.1
  have hrm : Ext L (rmOf f a) (rmOf f' a) := hc.2
  have hvol : Ext L (volOf f a) (volOf f' a) := ((hret.mapVals _).ewmaMean0 _ _ _).mapVals _
  have hadj : Ext L (adjOf f a) (adjOf f' a) := ((hret.align hvol _).clip _).mapVals _
  have hc2 := hadj.center (mu2 a) 0 a.mean
  have hcadj : Ext L (cadjOf f a) (cadjOf f' a) := hc2.1
  have ham : Ext L (amOf f a) (amOf f' a) := hc2.2
  have hcov : Ext L (covOf f a) (covOf f' a) := (hcadj.general0 _ _ _ _).keep
  obtain ⟨⟨d, hd, hdL⟩, hav⟩ := hcov
  refine ⟨d.map fun p => item0 a.mean (volOf f' a) (rmOf f' a) (amOf f' a) p.1 p.2, ?_, ?_⟩
  · unfold pureRun
    rw [hd, List.map_append]
    congr 1
    apply List.map_congr_left
    intro p hp
    have hp' : p.1 ∉ L := hav _ (List.mem_map_of_mem hp)
    unfold item0
    rw [hvol.loc hp', hrm.loc hp', ham.loc hp']
  · intro r hr
    obtain ⟨p, hp, rfl⟩ := List.mem_map.mp hr
    exact hdL _ (List.mem_map_of_mem hp)

end CovPred
