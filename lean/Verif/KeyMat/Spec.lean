import Verif.KeyMat.Model

/-!
# What the arrays of keyed vectors and matrices should be
-/

namespace KeyMat
open Py

variable {K V : Type} [LinearOrder K]

/-- `l` lists the elements of `ks` once each, in increasing order. -/
def Sorted (ks l : List K) : Prop := l.Pairwise (· < ·) ∧ ∀ k, k ∈ l ↔ k ∈ ks

/-- `arr` is the dense form of the entries `d`: one place for each key in increasing order, 0 where no entry is stored. -/
def IsVecArray [Zero V] (ks : List K) (d : Dict K V) (arr : List V) : Prop :=
  ∃ l, Sorted ks l ∧ arr = l.map (fun k => (Dict.get? d k).getD 0)

/-- The dense form of a matrix: one row for each key of the target space, one column for each key of the source space. -/
def IsMatArray [Zero V] (kfs kts : List K) (d : Dict (K × K) V) (arr : List (List V)) : Prop :=
  ∃ lf lt, Sorted kfs lf ∧ Sorted kts lt ∧ arr = lt.map (fun kt => lf.map (fun kf => (Dict.get? d (kf, kt)).getD 0))

/-- The entry of a keyed matrix, 0 when not stored. -/
def entry [Zero V] (d : Dict (K × K) V) (a b : K) : V := (Dict.get? d (a, b)).getD 0

/-- The entry of a nested matrix, 0 when not stored. -/
def nEntry [Zero V] (m : Nested K V) (a b : K) : V := (Dict.get? ((Dict.get? m a).getD []) b).getD 0

end KeyMat
