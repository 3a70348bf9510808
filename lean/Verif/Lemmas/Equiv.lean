import Verif.Lemmas.Inv
import Verif.Lemmas.XR
import Verif.Lemmas.IewmaMain

/-
Effect of scaling, permuting and repeating the assets on every stage of `iteratedEwma`, for arbitrary
frames (also with `nan` and infinities).
-/
set_option linter.unusedSectionVars false
namespace CovPred
open XR

variable {τ : Type} [DecidableEq τ] {ι κ ι' κ' : Type} [Ix ι] [Ix κ] [Ix ι'] [Ix κ']

/-- new column `k` is the old column `e k` times `c k` -/
noncomputable def xf (c : κ → ℝ) (e : κ → ι) (r : Arr ι XR) : Arr κ XR := Arr.ofFn fun k => fin (c k) * r (e k)

/-- the same for every row of a frame -/
noncomputable def xfF (c : κ → ℝ) (e : κ → ι) (f : Frame τ ι XR) : Frame τ κ XR := f.map fun p => (p.1, xf c e p.2)

theorem all_xf {c : κ → ℝ} {e : κ → ι} (hc : ∀ k, c k ≠ 0) (he : Function.Surjective e) (r : Arr ι XR) :
    (xf c e r).all Scalar.isNaN = r.all Scalar.isNaN := by
  rw [Bool.eq_iff_iff, Arr.all_iff, Arr.all_iff]
  simp only [xf, Arr.get_ofFn, isNaN_fin_mul (hc _)]
  constructor
  · intro h i
    obtain ⟨k, rfl⟩ := he i
    exact h k
  · intro h k; exact h (e k)

theorem filter_xfF {c : κ → ℝ} {e : κ → ι} (hc : ∀ k, c k ≠ 0) (he : Function.Surjective e) (f : Frame τ ι XR) :
    (xfF c e f).filter (fun p => !(p.2.all Scalar.isNaN)) = xfF c e (f.filter fun p => !(p.2.all Scalar.isNaN)) := by
  unfold xfF
  rw [List.filter_map]
  congr 1
  apply List.filter_congr
  intro p _
  simp only [Function.comp, all_xf hc he]

/-- the unclipped update is linear -/
theorem update_none {c : κ → ℝ} {e : κ → ι} (hc : ∀ k, c k ≠ 0) (b : XR) (mp : Int) (n : ℕ)
    (E N : Arr ι XR) :
    ewmaUpdate b mp none n (xf c e E) (xf c e N) = xf c e (ewmaUpdate b mp none n E N) := by
  ext k
  simp only [ewmaUpdate, Scalar.truthy, xf, Arr.get_ofFn]
  rw [fin_mul_add (hc k), div_eq, div_eq, ← fin_mul_sub (hc k)]
  congr 1
  ac_rfl

theorem maximum_fin_mul {c : ℝ} (hc : 0 < c) (x y : XR) :
    Scalar.maximum (fin c * x) (fin c * y) = fin c * Scalar.maximum x y := by
  unfold Scalar.maximum
  rw [isNaN_fin_mul hc.ne', isNaN_fin_mul hc.ne', leb_fin_mul hc]
  split
  · rfl
  · split
    · rfl
    · split <;> rfl

theorem minimum_fin_mul {c : ℝ} (hc : 0 < c) (x y : XR) :
    Scalar.minimum (fin c * x) (fin c * y) = fin c * Scalar.minimum x y := by
  unfold Scalar.minimum
  rw [isNaN_fin_mul hc.ne', isNaN_fin_mul hc.ne', leb_fin_mul hc]
  split
  · rfl
  · split
    · rfl
    · split <;> rfl

/-- the clipped update is positively homogeneous -/
theorem update_pos {c : κ → ℝ} {e : κ → ι} (hc : ∀ k, 0 < c k) (b : XR) (mp : Int) (cl : Option XR) (n : ℕ)
    (E N : Arr ι XR) :
    ewmaUpdate b mp cl n (xf c e E) (xf c e N) = xf c e (ewmaUpdate b mp cl n E N) := by
  have hplain := update_none (fun k => (hc k).ne') (e := e) b mp n E N
  unfold ewmaUpdate at hplain ⊢
  simp only [Scalar.truthy] at hplain
  cases hcl : Scalar.truthy cl with
  | none => exact hplain
  | some q =>
    simp only []
    by_cases hm : (n : Int) ≥ mp + 1
    · rw [if_pos hm, if_pos hm]
      ext k
      simp only [xf, Arr.get_ofFn, Scalar.npClip]
      rw [fin_mul_add (hc k).ne', div_eq, div_eq]
      congr 1
      rw [show -q * (fin (c k) * E (e k)) = fin (c k) * (-q * E (e k)) by ac_rfl,
        show q * (fin (c k) * E (e k)) = fin (c k) * (q * E (e k)) by ac_rfl,
        maximum_fin_mul (hc k), minimum_fin_mul (hc k), ← fin_mul_sub (hc k).ne']
      ac_rfl
    · rw [if_neg hm, if_neg hm]
      exact hplain

theorem mask_xf (c : κ → ℝ) (e : κ → ι) (mp : Int) (n : ℕ) (E : Arr ι XR) :
    maskWarmup mp n (xf c e E) = xf c e (maskWarmup mp n E) := by
  unfold maskWarmup
  split
  · ext k; simp [xf, nan_def]
  · rfl

/-- `_general` commutes with the transformation when the update and the row function do -/
theorem general_xf {c : κ → ℝ} {e : κ → ι} {c' : κ' → ℝ} {e' : κ' → ι'} {mp : Int} {cl : Option XR}
    {fct : Arr ι XR → Arr ι' XR} {fct' : Arr κ XR → Arr κ' XR}
    (hf : ∀ r, fct' (xf c e r) = xf c' e' (fct r))
    (hu : ∀ b n E N, ewmaUpdate b mp cl n (xf c' e' E) (xf c' e' N) = xf c' e' (ewmaUpdate b mp cl n E N))
    (f : Frame τ ι XR) (hl al : Option XR) :
    general (xfF c e f) hl al fct' mp cl = (general f hl al fct mp cl).map (xfF c' e') := by
  unfold general
  cases decay hl al with
  | error er => rfl
  | ok b =>
    cases f with
    | nil => rfl
    | cons p rest =>
      obtain ⟨t, row⟩ := p
      simp only [xfF, List.map_cons, Except.map]
      have hloop : ∀ (n : ℕ) (E : Arr ι' XR) (l : Frame τ ι XR),
          generalLoop b fct' mp cl n (xf c' e' E) (l.map fun p => (p.1, xf c e p.2)) =
            (generalLoop b fct mp cl n E l).map fun p => (p.1, xf c' e' p.2) := by
        intro n E l
        induction l generalizing n E with
        | nil => rfl
        | cons p l ih =>
          obtain ⟨t, row⟩ := p
          simp only [List.map_cons, generalLoop, hf, hu, mask_xf, ih]
      rw [hf, hloop, mask_xf]

theorem ewmaMean_xf {c : κ → ℝ} {e : κ → ι} (hc : ∀ k, c k ≠ 0) (he : Function.Surjective e) {cl : Option XR}
    (hcl : cl = none ∨ ∀ k, 0 < c k) (f : Frame τ ι XR) (h : XR) (mp : Int) :
    ewmaMean (xfF c e f) h mp cl = (ewmaMean f h mp cl).map (xfF c e) := by
  unfold ewmaMean
  rw [general_xf (c' := c) (e' := e) (fct := fun x => x) (fun r => rfl)]
  · cases general f (some h) none (fun x => x) mp cl with
    | error er => rfl
    | ok g => simp only [Except.map]; rw [filter_xfF hc he]
  · intro b n E N
    rcases hcl with rfl | hpos
    · exact update_none hc b mp n E N
    · exact update_pos hpos b mp cl n E N

theorem loc_xfF (c : κ → ℝ) (e : κ → ι) (f : Frame τ ι XR) (t : τ) :
    (xfF c e f).loc? t = (f.loc? t).map (xf c e) := by
  unfold Frame.loc? xfF
  induction f with
  | nil => rfl
  | cons p f ih =>
    obtain ⟨s, r⟩ := p
    rw [List.map_cons, List.lookup_cons, List.lookup_cons]
    cases h : (t == s) with
    | true => rfl
    | false => exact ih

theorem dropna_xfF {c : κ → ℝ} {e : κ → ι} (hc : ∀ k, c k ≠ 0) (he : Function.Surjective e) (f : Frame τ ι XR) :
    (xfF c e f).dropnaAll = xfF c e f.dropnaAll := filter_xfF hc he f

theorem fillna_xfF {c : κ → ℝ} {e : κ → ι} (hc : ∀ k, c k ≠ 0) (f : Frame τ ι XR) :
    (xfF c e f).fillna0 = xfF c e f.fillna0 := by
  unfold Frame.fillna0 Frame.mapVals xfF
  rw [List.map_map, List.map_map]
  apply List.map_congr_left
  intro p _
  simp only [Function.comp]
  congr 1
  ext k
  simp only [Arr.get_map, xf, Arr.get_ofFn, isNaN_fin_mul (hc k)]
  split
  · simp [zero_def, fin_mul]
  · rfl

theorem hasNaN_xfF {c : κ → ℝ} {e : κ → ι} (hc : ∀ k, c k ≠ 0) (he : Function.Surjective e) (f : Frame τ ι XR) :
    (xfF c e f).hasNaN = f.hasNaN := by
  unfold Frame.hasNaN xfF
  rw [List.any_map]
  congr 1
  funext p
  simp only [Function.comp]
  congr 1
  rw [Bool.eq_iff_iff, Arr.all_iff, Arr.all_iff]
  simp only [xf, Arr.get_ofFn, isNaN_fin_mul (hc _)]
  constructor
  · intro h i
    obtain ⟨k, rfl⟩ := he i
    exact h k
  · intro h k; exact h (e k)

theorem filled_xfF {c : κ → ℝ} {e : κ → ι} (hc : ∀ k, c k ≠ 0) (he : Function.Surjective e) (f : Frame τ ι XR)
    (a : IewmaArgs XR) : filled (xfF c e f) a = xfF c e (filled f a) := by
  unfold filled
  rw [hasNaN_xfF hc he, fillna_xfF hc]
  split
  · split <;> rfl
  · rfl

theorem align_xfF {c d s : κ → ℝ} {e : κ → ι} {op : XR → XR → XR}
    (hop : ∀ k x y, op (fin (c k) * x) (fin (d k) * y) = fin (s k) * op x y) (f g : Frame τ ι XR) :
    Frame.alignWith op (xfF c e f) (xfF d e g) = xfF s e (Frame.alignWith op f g) := by
  unfold Frame.alignWith
  have hx : xfF c e f = f.map (fun p => (p.1, xf c e p.2)) := rfl
  rw [hx, List.map_map]
  conv_rhs => rw [xfF, List.map_map]
  apply List.map_congr_left
  intro p _
  simp only [Function.comp]
  rw [loc_xfF]
  congr 1
  cases g.loc? p.1 with
  | none => ext k; simp [xf, nan_def]
  | some r => ext k; simp [xf, hop]

theorem center_xf {c : κ → ℝ} {e : κ → ι} (hc : ∀ k, c k ≠ 0) (he : Function.Surjective e) (f : Frame τ ι XR)
    (h : XR) (mp : Int) (mean : Bool) :
    center (xfF c e f) h mp mean = (center f h mp mean).map fun cm => (xfF c e cm.1, xfF c e cm.2) := by
  unfold center
  cases mean with
  | true =>
    simp only [if_true]
    rw [ewmaMean_xf hc he (Or.inl rfl)]
    cases ewmaMean f h mp none with
    | error er => rfl
    | ok m =>
      simp only [Except.map]
      rw [align_xfF (s := c) (fun k x y => (fin_mul_sub (hc k) x y).symm), dropna_xfF hc he]
  | false =>
    simp only [Bool.false_eq_true, if_false, Except.map]
    congr 2
    unfold Frame.mapVals xfF
    rw [List.map_map, List.map_map]
    apply List.map_congr_left
    intro p _
    simp only [Function.comp]
    congr 1
    ext k
    simp only [Arr.get_map, xf, Arr.get_ofFn]
    ac_rfl

theorem volatility_xf {c : κ → ℝ} {e : κ → ι} (hc : ∀ k, c k ≠ 0) (he : Function.Surjective e) (f : Frame τ ι XR)
    (h : XR) (mp : Int) (cl : Option XR) :
    volatility (xfF c e f) h mp cl = (volatility f h mp cl).map (xfF (fun k => |c k|) e) := by
  have hsq : Frame.mapVals (fun x => Scalar.npow x 2) (xfF c e f) =
      xfF (fun k => |c k| ^ 2) e (Frame.mapVals (fun x => Scalar.npow x 2) f) := by
    unfold Frame.mapVals xfF
    rw [List.map_map, List.map_map]
    apply List.map_congr_left
    intro p _
    simp only [Function.comp]
    congr 1
    ext k
    simp only [Arr.get_map, xf, Arr.get_ofFn, npow_eq_pow, mul_pow]
    rw [← npow_eq_pow (fin _), fin_npow, sq_abs]
  unfold volatility variance
  simp only []
  rw [hsq, ewmaMean_xf (fun k => by have := hc k; positivity) he
    (Or.inr fun k => by have := abs_pos.mpr (hc k); positivity)]
  cases ewmaMean (Frame.mapVals (fun x => Scalar.npow x 2) f) h mp _ with
  | error er => rfl
  | ok g =>
    simp only [Except.map]
    congr 1
    unfold Frame.mapVals xfF
    rw [List.map_map, List.map_map]
    apply List.map_congr_left
    intro p _
    simp only [Function.comp]
    congr 1
    ext k
    simp only [Arr.get_map, xf, Arr.get_ofFn]
    exact sqrt_fin_mul (abs_pos.mpr (hc k)) _

theorem leb_antisymm_total (x y : XR) (hx : Scalar.isNaN x = false) (hy : Scalar.isNaN y = false) :
    Scalar.leb x y = true ∨ Scalar.leb y x = true := by
  cases x with
  | fin a =>
    cases y with
    | fin b => rw [leb_fin, leb_fin]; exact le_total a b
    | pinf => left; rfl
    | ninf => right; rfl
    | nan => cases hy
  | pinf => cases y with
    | fin b => right; rfl
    | pinf => left; rfl
    | ninf => right; rfl
    | nan => cases hy
  | ninf => cases y with
    | fin b => left; rfl
    | pinf => left; rfl
    | ninf => left; rfl
    | nan => cases hy
  | nan => cases hx

theorem leb_trans {x y z : XR} (h1 : Scalar.leb x y = true) (h2 : Scalar.leb y z = true) : Scalar.leb x z = true := by
  cases x with
  | fin a =>
    cases y with
    | fin b =>
      cases z with
      | fin c => rw [leb_fin] at *; exact le_trans h1 h2
      | pinf => rfl
      | ninf => cases h2
      | nan => cases h2
    | pinf => cases z with
      | pinf => rfl
      | _ => cases h2
    | ninf => cases h1
    | nan => cases h1
  | pinf => cases y with
    | pinf => exact h2
    | _ => cases h1
  | ninf => cases z with
    | nan => cases y <;> cases h2
    | _ => rfl
  | nan => cases y <;> cases h1

theorem pdClip_neg (q x : XR) : pdClip q (-x) = -pdClip q x := by
  unfold pdClip
  rw [isNaN_neg]
  by_cases hq : Scalar.isNaN q = true
  · simp [hq]
  · by_cases hx : Scalar.isNaN x = true
    · simp [hq, hx]
    · simp only [hq, hx, Bool.false_eq_true, if_false]
      have nn : ∀ y : XR, - -y = y := by intro y; cases y <;> simp [fin_neg]
      -- both cases: bounds `-h` and `h` with `-h ≤ h`
      have key : ∀ h : XR, Scalar.leb (-h) h = true →
          (if Scalar.leb (-x) h = true then (if Scalar.leb (-h) (-x) = true then -x else -h) else h) =
          -(if Scalar.leb x h = true then (if Scalar.leb (-h) x = true then x else -h) else h) := by
        intro h hh
        have e1 : Scalar.leb (-x) h = Scalar.leb (-h) x := by rw [← nn h, leb_neg, nn]
        rw [e1, leb_neg]
        by_cases h1 : Scalar.leb (-h) x = true
        · by_cases h2 : Scalar.leb x h = true
          · simp [h1, h2]
          · simp [h1, h2]
        · by_cases h2 : Scalar.leb x h = true
          · simp [h1, h2, nn]
          · exfalso
            rcases leb_antisymm_total x h (by simpa using hx) (by
              cases h with
              | nan => cases hh
              | _ => rfl) with hc | hc
            · exact h2 hc
            · exact h1 (leb_trans hh hc)
      by_cases hl : Scalar.leb (-q) q = true
      · simp only [hl, if_true]
        exact key q hl
      · simp only [hl, Bool.false_eq_true, if_false]
        have hq' : Scalar.leb q (-q) = true := by
          rcases leb_antisymm_total q (-q) (by simpa using hq) (by rw [isNaN_neg]; simpa using hq) with h | h
          · exact h
          · exact absurd h hl
        have := key (-q) (by rw [nn]; exact hq')
        rw [nn] at this
        exact this

theorem pdClip_sign {s : ℝ} (hs : s = 1 ∨ s = -1) (q x : XR) : pdClip q (fin s * x) = fin s * pdClip q x := by
  rcases hs with rfl | rfl
  · rw [fin_one_mul, fin_one_mul]
  · rw [fin_neg_one_mul, fin_neg_one_mul, pdClip_neg]

theorem clip_xf {s : κ → ℝ} {e : κ → ι} (hs : ∀ k, s k = 1 ∨ s k = -1) (he : Function.Surjective e)
    (f : Frame τ ι XR) (cl : Option XR) : clip (xfF s e f) cl = xfF s e (clip f cl) := by
  have hs0 : ∀ k, s k ≠ 0 := fun k => by rcases hs k with h | h <;> rw [h] <;> norm_num
  unfold clip
  cases Scalar.truthy cl with
  | none => exact dropna_xfF hs0 he f
  | some q =>
    simp only []
    rw [← dropna_xfF hs0 he]
    congr 1
    unfold Frame.mapVals xfF
    rw [List.map_map, List.map_map]
    apply List.map_congr_left
    intro p _
    simp only [Function.comp]
    congr 1
    ext k
    simp only [Arr.get_map, xf, Arr.get_ofFn, pdClip_sign (hs k)]

theorem div_xf {c : ℝ} (hc : c ≠ 0) (x y : XR) : fin c * x / (fin |c| * y) = fin (c / |c|) * (x / y) := by
  have h := abs_pos.mpr hc
  rw [div_eq, div_eq, inv_fin_mul h, show fin (c / |c|) = fin c * fin |c|⁻¹ by rw [fin_mul]; congr 1]
  ac_rfl

theorem outer_xf (c : κ → ℝ) (e : κ → ι) (r : Arr ι XR) :
    outer (xf c e r) = xf (fun p : κ × κ => c p.1 * c p.2) (fun p => (e p.1, e p.2)) (outer r) := by
  ext p
  simp only [outer, xf, Arr.get_ofFn, ← fin_mul]
  ac_rfl

theorem ewmaCov_xf {c : κ → ℝ} {e : κ → ι} (hc : ∀ k, c k ≠ 0) (he : Function.Surjective e) (f : Frame τ ι XR)
    (h : XR) (mp : Int) :
    ewmaCov (xfF c e f) h mp =
      (ewmaCov f h mp).map (xfF (fun p : κ × κ => c p.1 * c p.2) fun p => (e p.1, e p.2)) := by
  have hc2 : ∀ p : κ × κ, c p.1 * c p.2 ≠ 0 := fun p => mul_ne_zero (hc _) (hc _)
  have he2 : Function.Surjective fun p : κ × κ => (e p.1, e p.2) := by
    rintro ⟨i, j⟩
    obtain ⟨k, rfl⟩ := he i
    obtain ⟨l, rfl⟩ := he j
    exact ⟨(k, l), rfl⟩
  unfold ewmaCov
  rw [general_xf (fct := outer) (outer_xf c e) (fun b n E N => update_none hc2 b mp n E N)]
  cases general f (some h) none outer mp none with
  | error er => rfl
  | ok g => simp only [Except.map]; rw [filter_xfF hc2 he2]

theorem scaleCov_xf {c s : κ → ℝ} {e : κ → ι} (hs : ∀ k, s k = 1 ∨ s k = -1) (hsc : ∀ k, |c k| * s k = c k)
    (v : Arr ι XR) (M : Arr (ι × ι) XR) :
    scaleCov (xf (fun k => |c k|) e v) (xf (fun p : κ × κ => s p.1 * s p.2) (fun p => (e p.1, e p.2)) M) =
      xf (fun p : κ × κ => c p.1 * c p.2) (fun p => (e p.1, e p.2)) (scaleCov v M) := by
  have hss : ∀ k, s k * s k = 1 := fun k => by rcases hs k with h | h <;> rw [h] <;> norm_num
  ext p
  obtain ⟨k, l⟩ := p
  simp only [scaleCov, toCorrelation, xf, Arr.get_ofFn, hss, fin_one_mul]
  generalize (if Scalar.isZero (M (e k, e k)) = true then Scalar.nan else 1 / Scalar.sqrt (M (e k, e k))) = a
  generalize (if Scalar.isZero (M (e l, e l)) = true then Scalar.nan else 1 / Scalar.sqrt (M (e l, e l))) = b
  conv_rhs => rw [← hsc k, ← hsc l]
  simp only [← fin_mul]
  ac_rfl

theorem scaleMean_xf {c s : κ → ℝ} {e : κ → ι} (hc : ∀ k, c k ≠ 0) (hsc : ∀ k, |c k| * s k = c k)
    (v m1 m2 : Arr ι XR) :
    scaleMean (xf (fun k => |c k|) e v) (xf c e m1) (xf s e m2) = xf c e (scaleMean v m1 m2) := by
  ext k
  simp only [scaleMean, xf, Arr.get_ofFn]
  rw [fin_mul_add (hc k)]
  congr 1
  conv_rhs => rw [← hsc k, ← fin_mul]
  ac_rfl

/-- transformation of a result -/
noncomputable def xfItem (c : κ → ℝ) (e : κ → ι) (r : IEWMA τ ι XR) : IEWMA τ κ XR where
  time := r.time
  mean := xf c e r.mean
  covariance := xf (fun p : κ × κ => c p.1 * c p.2) (fun p => (e p.1, e p.2)) r.covariance
  volatility := xf (fun k => |c k|) e r.volatility

theorem except_map_bind {A B C E : Type} (x : Except E A) (g : A → B) (k : B → Except E C) :
    (x.map g).bind k = x.bind fun y => k (g y) := by cases x <;> rfl

theorem except_bind_map {A B C E : Type} (x : Except E A) (k : A → Except E B) (g : B → C) :
    (x.bind k).map g = x.bind fun y => (k y).map g := by cases x <;> rfl

theorem mapM_map_except {A B C E : Type} (l : List A) (k : A → Except E B) (g : B → C) :
    (l.mapM k).map (List.map g) = l.mapM fun y => (k y).map g := by
  induction l with
  | nil => rfl
  | cons x l ih =>
    rw [List.mapM_cons, List.mapM_cons, ← ih]
    cases k x with
    | error e => rfl
    | ok b =>
      cases l.mapM k with
      | error e => rfl
      | ok bs => rfl

theorem item_xf {c s : κ → ℝ} {e : κ → ι} (hc : ∀ k, c k ≠ 0) (hs : ∀ k, s k = 1 ∨ s k = -1)
    (hsc : ∀ k, |c k| * s k = c k) (mean : Bool) (vola rm am : Frame τ ι XR) (t : τ) (M : Arr (ι × ι) XR) :
    iewmaItem mean (xfF (fun k => |c k|) e vola) (xfF c e rm) (xfF s e am) t
      (xf (fun p : κ × κ => s p.1 * s p.2) (fun p => (e p.1, e p.2)) M) =
    (iewmaItem mean vola rm am t M).map (xfItem c e) := by
  unfold iewmaItem locE
  rw [loc_xfF, loc_xfF, loc_xfF]
  cases mean with
  | false =>
    cases hv : vola.loc? t with
    | none => rfl
    | some v =>
      simp only [Bool.false_eq_true, if_false, Option.map_some, bind, Except.bind, pure, Except.pure, Except.map]
      rw [scaleCov_xf hs hsc]
      unfold xfItem
      congr 2
      ext k
      simp [xf, zero_def, fin_mul]
  | true =>
    cases hv : vola.loc? t with
    | none => rfl
    | some v =>
      cases h1 : rm.loc? t with
      | none => rfl
      | some m1 =>
        cases h2 : am.loc? t with
        | none => rfl
        | some m2 =>
          simp only [if_true, Option.map_some, bind, Except.bind, pure, Except.pure, Except.map]
          rw [scaleCov_xf hs hsc, scaleMean_xf hc hsc]
          rfl

/-- the whole run -/
theorem iteratedEwma_xf {c : κ → ℝ} {e : κ → ι} (hc : ∀ k, c k ≠ 0) (he : Function.Surjective e)
    (f : Frame τ ι XR) (a : IewmaArgs XR) :
    iteratedEwma (xfF c e f) a = (iteratedEwma f a).map (List.map (xfItem c e)) := by
  have habs : ∀ k, |c k| ≠ 0 := fun k => abs_ne_zero.mpr (hc k)
  have hsc : ∀ k, |c k| * (c k / |c k|) = c k := fun k => mul_div_cancel₀ (c k) (habs k)
  have hs : ∀ k, c k / |c k| = 1 ∨ c k / |c k| = -1 := by
    intro k
    rcases lt_or_gt_of_ne (hc k) with h | h
    · right; rw [abs_of_neg h, div_neg, div_self (hc k)]
    · left; rw [abs_of_pos h, div_self (hc k)]
  have hs0 : ∀ k, c k / |c k| ≠ 0 := fun k => div_ne_zero (hc k) (habs k)
  rw [iteratedEwma_steps, iteratedEwma_steps, filled_xfF hc he, center_xf hc he]
  rw [except_map_bind, except_bind_map]
  congr 1
  funext cm
  rw [volatility_xf hc he, except_map_bind, except_bind_map]
  congr 1
  funext vola
  rw [align_xfF (s := fun k => c k / |c k|) (fun k x y => div_xf (hc k) x y), clip_xf hs he, fillna_xfF hs0,
    center_xf hs0 he, except_map_bind, except_bind_map]
  congr 1
  funext am
  rw [ewmaCov_xf hs0 he, except_map_bind, except_bind_map]
  congr 1
  funext covs
  rw [mapM_map_except]
  unfold xfF
  rw [List.mapM_map]
  congr 1
  funext p
  simp only [Function.comp]
  exact item_xf hc hs hsc _ _ _ _ _ _

end CovPred
