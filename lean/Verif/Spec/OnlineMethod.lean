import Verif.Spec.Online
import Verif.Spec.CmIewma

/-
The whole CM-IEWMA method as an online method: what is kept between two rows of returns, how a row changes it, and the prediction the row
gives. Kept are the states of the experts (`Spec/Online`), what the experts predicted last, and the last `W` rows with what the experts had
predicted for them.
-/
namespace CovPred

variable {n K : ℕ}

/-- a row of the window: the covariances the experts had predicted for it, and its returns -/
structure PastRow (n K : ℕ) where
  experts : Fin K → Mat n
  ret : Vec n

/-- the log-likelihood of the rows under the blends, with weights `w`, of what the experts had predicted for them -/
noncomputable def logLikOf (l : List (PastRow n K)) (w : Vec K) : ℝ :=
  (l.map fun o => gaussLogDensity 0 (blendCov o.experts w) o.ret).sum

open Classical in
/-- the weights on the simplex that maximise it -/
noncomputable def bestOf (l : List (PastRow n K)) : Vec K :=
  if h : ∃ w, Simplex w ∧ ∀ w', Simplex w' → logLikOf l w' ≤ logLikOf l w then h.choose else 0

/-- the arguments -/
structure CmOnline (K : ℕ) where
  mv : ℕ
  mc : ℕ
  W : ℕ
  lamda : ℝ
  /-- the half-lives of the experts -/
  half : Fin K → ℝ × ℝ
  /-- the variances of these experts are multiplied by `1 + lamda` -/
  raised : Fin K → Prop

/-- what is kept -/
@[ext] structure CmState (n K : ℕ) where
  expert : Fin K → OnlineState (Fin n) := fun _ => {}
  last : Option (Fin K → Mat n) := none
  window : List (PastRow n K) := []

variable (a : CmOnline K) (s : CmState n K) (x : Vec n)

/-- the covariance that expert `i` gives after the row `x` -/
noncomputable def CmState.expertCov (i : Fin K) : Option (Mat n) :=
  ((s.expert i).output (cmArgs a.mv a.mc (a.half i)) x ()).map realCov

open Classical in
/-- the covariances of all experts after the row `x` -/
noncomputable def CmState.predicted : Option (Fin K → Mat n) :=
  if ∀ i, (s.expertCov a x i).isSome then
    some fun i =>
      let S := (s.expertCov a x i).getD 0
      if a.raised i then Matrix.of fun j k => if j = k then (1 + a.lamda) * S j k else S j k else S
  else none

/-- the window with the row `x` -/
noncomputable def CmState.newWindow : List (PastRow n K) :=
  match s.last with
  | none => []
  | some E =>
    let l := s.window ++ [⟨E, x⟩]
    l.drop (l.length - a.W)

/-- what is kept after the row `x` -/
noncomputable def CmState.step : CmState n K where
  expert i := (s.expert i).step (cmArgs a.mv a.mc (a.half i)) x
  last := s.predicted a x
  window := s.newWindow a x

/-- the prediction after the row `x`, if the window is full -/
noncomputable def CmState.prediction : Option (Mat n) :=
  (s.predicted a x).bind fun S =>
    if (s.newWindow a x).length = a.W then some (blendCov S (bestOf (s.newWindow a x))) else none

/-- what is kept after the first `t` rows of a table -/
noncomputable def cmState (a : CmOnline K) (x : ℕ → Vec n) : ℕ → CmState n K
  | 0 => {}
  | t + 1 => (cmState a x t).step a (x t)

/-- the arguments of the call with the half-lives `pairs` -/
noncomputable def cmOnline {L : Type} [DecidableEq L] (label : XR × XR → L) (pairs : List (ℝ × ℝ)) (mv mc W : ℕ) (lamda : ℝ) :
    CmOnline (expertPairs label (pairs.map fun p => (XR.fin p.1, XR.fin p.2))).length where
  mv := mv
  mc := mc
  W := W
  lamda := lamda
  half := expertPair label pairs
  raised i := ∃ p rest, pairs = p :: rest ∧
    (expertPairs label (pairs.map fun p => (XR.fin p.1, XR.fin p.2)))[i].1 = label (XR.fin p.1, XR.fin p.2)

end CovPred
