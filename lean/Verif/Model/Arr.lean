import Verif.Num.Scalar
import Mathlib.Logic.Equiv.Fin.Basic

/-
numpy arrays and pandas frames, as far as `cvx/covariance/ewma.py` uses them.
-/
namespace CovPred

/-- A finite index type: the columns of a frame (`ι`), or pairs of columns (`ι × ι`) for a matrix. (the columns of
the frames of ewma.py:50-200) -/
class Ix (ι : Type) where
  card : Nat
  equiv : ι ≃ Fin card

instance (n : Nat) : Ix (Fin n) := ⟨n, Equiv.refl _⟩
instance {ι κ : Type} [Ix ι] [Ix κ] : Ix (ι × κ) :=
  ⟨Ix.card ι * Ix.card κ, (Equiv.prodCongr Ix.equiv Ix.equiv).trans finProdFinEquiv⟩

/-- A numpy array with one entry per element of `ι`.  It stores its entries (so the model can be run). (the rows
and matrices `.values` of ewma.py:123-137, 175-200) -/
structure Arr (ι : Type) [Ix ι] (α : Type) where
  data : Vector α (Ix.card ι)

namespace Arr
variable {ι : Type} [Ix ι] {α β : Type}

/-- entry `i`. (ewma.py:127-135) -/
def get (a : Arr ι α) (i : ι) : α := a.data[Ix.equiv i]

instance : CoeFun (Arr ι α) (fun _ => ι → α) := ⟨get⟩

/-- the array with entries `f i`. (ewma.py:133-135) -/
def ofFn (f : ι → α) : Arr ι α := ⟨Vector.ofFn fun k => f (Ix.equiv.symm k)⟩

@[simp] theorem get_ofFn (f : ι → α) (i : ι) : (ofFn f).get i = f i := by
  simp [ofFn, get]

@[ext] theorem ext {a b : Arr ι α} (h : ∀ i, a.get i = b.get i) : a = b := by
  cases a with | mk da => cases b with | mk db =>
  congr 1
  apply Vector.ext
  intro k hk
  have := h (Ix.equiv.symm ⟨k, hk⟩)
  simpa [get] using this

@[simp] theorem ofFn_get (a : Arr ι α) : ofFn a.get = a := by ext i; simp

/-- `np.all(p(a))`. (ewma.py:199) -/
def all (p : α → Bool) (a : Arr ι α) : Bool := a.data.all p

theorem all_iff (p : α → Bool) (a : Arr ι α) : a.all p = true ↔ ∀ i, p (a i) = true := by
  unfold all
  rw [Vector.all_eq_true]
  constructor
  · intro h i
    exact h _ (Ix.equiv i).2
  · intro h k hk
    have := h (Ix.equiv.symm ⟨k, hk⟩)
    simpa [get] using this

/-- elementwise map. (ewma.py:26, 47, 83) -/
def map (f : α → β) (a : Arr ι α) : Arr ι β := ofFn fun i => f (a i)

@[simp] theorem get_map (f : α → β) (a : Arr ι α) (i : ι) : (a.map f).get i = f (a i) := by
  simp [map]

end Arr

/-- A pandas `DataFrame` with index labels `τ` and columns `ι` (or, for `κ = ι × ι`, a dictionary
`{time: matrix}`): the rows in index order.  Labels are meant to be pairwise distinct. (ewma.py:12-13, 47, 50-85,
192-200) -/
abbrev Frame (τ ι : Type) [Ix ι] (α : Type) := List (τ × Arr ι α)

namespace Frame
variable {τ ι : Type} [Ix ι] {α β : Type}

/-- `frame.index`. (ewma.py:13, 194) -/
def index (f : Frame τ ι α) : List τ := f.map Prod.fst

/-- `frame.loc[t]` (`none` stands for `KeyError`). (ewma.py:175-182) -/
def loc? [DecidableEq τ] (f : Frame τ ι α) (t : τ) : Option (Arr ι α) := f.lookup t

/-- elementwise function of a frame. (ewma.py:26, 47, 72, 83, 144) -/
def mapVals (g : α → β) (f : Frame τ ι α) : Frame τ ι β := f.map fun p => (p.1, p.2.map g)

/-- `frame.dropna(axis=0, how="all")`. (ewma.py:70, 83, 85) -/
def dropnaAll [Scalar α] (f : Frame τ ι α) : Frame τ ι α := f.filter fun p => !(p.2.all Scalar.isNaN)

/-- `frame.fillna(0.0)`. (ewma.py:144, 164) -/
def fillna0 [Scalar α] (f : Frame τ ι α) : Frame τ ι α := f.mapVals fun x => if Scalar.isNaN x then 0 else x

/-- `frame.isna().any().any()`. (ewma.py:143) -/
def hasNaN [Scalar α] (f : Frame τ ι α) : Bool := f.any fun p => !(p.2.all fun x => !(Scalar.isNaN x))

/-- Binary arithmetic `f op g` of two frames with the same columns; pandas aligns on the index and fills rows
missing in `g` with `nan`.  Simplification: rows of `g` missing in `f` are ignored; in every use the index of
`g` is contained in that of `f` (`Verif.Lemmas`), so there are none.  The order of rows is that of `f`, which
for an increasing index is what pandas returns (any order: `Model/EwmaOrder`). (ewma.py:70, 163) -/
def alignWith [DecidableEq τ] [Scalar α] (op : α → α → α) (f g : Frame τ ι α) : Frame τ ι α :=
  f.map fun p =>
    (p.1, match g.loc? p.1 with
      | some r => Arr.ofFn fun i => op (p.2 i) (r i)
      | none => Arr.ofFn fun _ => Scalar.nan)

end Frame

/-- The Python exceptions that can escape from the modelled code. (combination.py:264 catches one of them; the
other uses cite their lines) -/
inductive Err where
  | indexError | keyError | typeError | valueError | assertionError | attributeError | linAlgError
  | other
  deriving DecidableEq, Repr

end CovPred
