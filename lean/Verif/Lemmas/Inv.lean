import Verif.Model.Ewma

/-
Inversion of a successful run of `iteratedEwma`.
-/
namespace CovPred

theorem mapM_forall₂ {A B E : Type} {f : A → Except E B} {l : List A} {rs : List B} (h : l.mapM f = .ok rs) :
    List.Forall₂ (fun x r => f x = .ok r) l rs := by
  induction l generalizing rs with
  | nil => cases h; exact .nil
  | cons x l ih =>
    rw [List.mapM_cons] at h
    simp only [bind, Except.bind] at h
    split at h
    · cases h
    · next r hr =>
      split at h
      · cases h
      · next rs' hrs =>
        cases h
        exact .cons hr (ih hrs)

theorem mapM_of_forall₂ {A B E : Type} {f : A → Except E B} {l : List A} {rs : List B}
    (h : List.Forall₂ (fun x r => f x = .ok r) l rs) : l.mapM f = .ok rs := by
  induction h with
  | nil => rfl
  | cons hx _ ih => rw [List.mapM_cons, hx, ih]; rfl

theorem forall₂_mem_right {A B : Type} {R : A → B → Prop} {l : List A} {rs : List B} (h : List.Forall₂ R l rs)
    {r : B} (hr : r ∈ rs) : ∃ x ∈ l, R x r := by
  induction h with
  | nil => cases hr
  | cons hx _ ih =>
    rcases List.mem_cons.mp hr with rfl | hr
    · exact ⟨_, by simp, hx⟩
    · obtain ⟨x, hx, hR⟩ := ih hr
      exact ⟨x, by simp [hx], hR⟩

theorem forall₂_mem_left {A B : Type} {R : A → B → Prop} {l : List A} {rs : List B} (h : List.Forall₂ R l rs)
    {x : A} (hx : x ∈ l) : ∃ r ∈ rs, R x r := by
  induction h with
  | nil => cases hx
  | cons hr _ ih =>
    rcases List.mem_cons.mp hx with rfl | hx
    · exact ⟨_, by simp, hr⟩
    · obtain ⟨r, hr, hR⟩ := ih hx
      exact ⟨r, by simp [hr], hR⟩

variable {τ ι : Type} [DecidableEq τ] [Ix ι] {α : Type} [Scalar α]

/-- the returns after the optional replacement of `nan` -/
def filled (f : Frame τ ι α) (a : IewmaArgs α) : Frame τ ι α :=
  if a.nanToNum then (if f.hasNaN then f.fillna0 else f) else f

/-- the steps of `iteratedEwma` -/
theorem iteratedEwma_steps (f : Frame τ ι α) (a : IewmaArgs α) :
    iteratedEwma f a =
      (center (filled f a) ((Scalar.truthy a.muHalflife1).getD a.volaHalflife) 0 a.mean).bind fun cm =>
      (volatility cm.1 a.volaHalflife a.minPeriodsVola a.clipAt).bind fun vola =>
      (center (clip (Frame.alignWith (· / ·) cm.1 vola) a.clipAt).fillna0
        ((Scalar.truthy a.muHalflife2).getD a.covHalflife) 0 a.mean).bind fun am =>
      (ewmaCov am.1 a.covHalflife a.minPeriodsCov).bind fun covs =>
      covs.mapM fun p => iewmaItem a.mean vola cm.2 am.2 p.1 p.2 := rfl

/-- what a successful run went through -/
theorem iteratedEwma_inv {f : Frame τ ι α} {a : IewmaArgs α} {rs : List (IEWMA τ ι α)}
    (h : iteratedEwma f a = .ok rs) :
    ∃ ret rmean vola adj amean covs,
      center (filled f a) ((Scalar.truthy a.muHalflife1).getD a.volaHalflife) 0 a.mean = .ok (ret, rmean) ∧
      volatility ret a.volaHalflife a.minPeriodsVola a.clipAt = .ok vola ∧
      center (clip (Frame.alignWith (· / ·) ret vola) a.clipAt).fillna0
        ((Scalar.truthy a.muHalflife2).getD a.covHalflife) 0 a.mean = .ok (adj, amean) ∧
      ewmaCov adj a.covHalflife a.minPeriodsCov = .ok covs ∧
      List.Forall₂ (fun p r => iewmaItem a.mean vola rmean amean p.1 p.2 = .ok r) covs rs := by
  rw [iteratedEwma_steps] at h
  simp only [Except.bind] at h
  split at h
  · cases h
  next cm h1 =>
  split at h
  · cases h
  next vola h2 =>
  split at h
  · cases h
  next am h3 =>
  split at h
  · cases h
  next covs h4 =>
  exact ⟨cm.1, cm.2, vola, am.1, am.2, covs, h1, h2, h3, h4, mapM_forall₂ h⟩

/-- the parts of one result -/
theorem iewmaItem_inv {mean : Bool} {vola rmean amean : Frame τ ι α} {t : τ} {M : Arr (ι × ι) α} {r : IEWMA τ ι α}
    (h : iewmaItem mean vola rmean amean t M = .ok r) :
    ∃ v, vola.loc? t = some v ∧ r.time = t ∧ r.volatility = v ∧ r.covariance = scaleCov v M ∧
      (mean = false → r.mean = Arr.ofFn fun _ => 0) ∧
      (mean = true → ∃ m1 m2, rmean.loc? t = some m1 ∧ amean.loc? t = some m2 ∧ r.mean = scaleMean v m1 m2) := by
  unfold iewmaItem at h
  cases mean with
  | false =>
    simp only [Bool.false_eq_true, if_false, bind, Except.bind, pure, Except.pure, locE] at h
    cases hv : vola.loc? t with
    | none => rw [hv] at h; cases h
    | some v => rw [hv] at h; cases h; exact ⟨v, rfl, rfl, rfl, rfl, fun _ => rfl, fun h => by cases h⟩
  | true =>
    simp only [if_true, bind, Except.bind, pure, Except.pure, locE] at h
    cases hv : vola.loc? t with
    | none => rw [hv] at h; cases h
    | some v =>
      cases h1 : rmean.loc? t with
      | none => rw [hv, h1] at h; cases h
      | some m1 =>
        cases h2 : amean.loc? t with
        | none => rw [hv, h1, h2] at h; cases h
        | some m2 =>
          rw [hv, h1, h2] at h; cases h
          exact ⟨v, rfl, rfl, rfl, rfl, (fun h => Bool.noConfusion h), (fun _ => ⟨m1, m2, rfl, rfl, rfl⟩)⟩

end CovPred
