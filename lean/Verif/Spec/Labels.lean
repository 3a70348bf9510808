import Mathlib.Data.List.Basic

/-
The labels of a table with repeated labels.
-/
namespace CovPred

/-- `l` lists the labels of the rows, each once, in the order of their first rows. -/
structure FirstSeen {τ A : Type} [DecidableEq τ] (rows : List (τ × A)) (l : List τ) : Prop where
  mem : ∀ t, t ∈ l ↔ t ∈ rows.map Prod.fst
  order : l.Pairwise fun a b => (rows.map Prod.fst).idxOf a < (rows.map Prod.fst).idxOf b

end CovPred
