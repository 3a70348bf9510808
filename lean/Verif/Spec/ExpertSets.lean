import Verif.Spec.Certificate

/-
Some of the experts of a panel.
-/
namespace CovPred

variable {τ : Type} {n K J : ℕ}

/-- The panel with the experts `e 0, e 1, ...` only. -/
def Panel.pick (P : Panel τ n K) (e : Fin J → Fin K) : Panel τ n J where
  len := P.len
  time := P.time
  cov := fun t j => P.cov t (e j)
  mean := fun t j => P.mean t (e j)
  ret := P.ret

open Classical in
/-- Weights of the picked experts as weights of all: the others get zero. -/
noncomputable def padWeights (e : Fin J → Fin K) (v : Vec J) : Vec K := fun k => if h : ∃ j, e j = k then v h.choose else 0

end CovPred
