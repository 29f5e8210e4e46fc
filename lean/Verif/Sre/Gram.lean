import Verif.Sre.Model
import Mathlib.Data.Complex.Basic
import Mathlib.Analysis.Real.Sqrt

/-!
# Orthogonalisation of sparse matrices, `phasor/matrix/SRE_matrix_algorithms.py` l.65-123

Scalar complex values with exact arithmetic (arrays of values are handled value by value by numpy, except for the tests
`np.any`, which then speak of all of them).  `thr` stands for `finfo.eps * 10`.
-/

namespace Sre
open Py Graph

variable {N : Type} [DecidableEq N]

/-- `d.get(k, 0)`. -/
def getz (d : Dict N ℂ) (k : N) : ℂ := (Dict.get? d k).getD 0

/-- l.74-79: the projection and the squared norm of one earlier row. -/
noncomputable def projection (em : Dict (N × N) ℂ) (k_from : N) (v : Dict N ℂ) (ks : List N) : Except Err (ℂ × ℂ) :=
  ks.foldlM (fun a k_to => do
    let e ← Dict.get em (k_from, k_to)
    pure (a.1 + (starRingEnd ℂ) e * getz v k_to, a.2 + e * (starRingEnd ℂ) e)) (0, 0)

/-- l.71-86: one earlier row is taken out of the vector. -/
noncomputable def project (em : Dict (N × N) ℂ) (k_from : N) (fseq : List N) (v : Dict N ℂ) : Except Err (Dict N ℂ) := do
  let a ← projection em k_from v fseq
  if a.1 ≠ 0 then
    fseq.foldlM (fun v k_to => do
      let e ← Dict.get em (k_from, k_to)
      if a.2 = 0 then Except.error Err.zeroDivision
      else pure (Dict.set v k_to (getz v k_to - a.1 * e / a.2))) v
  else
    pure (fseq.foldl (fun v k_to => Dict.set v k_to (getz v k_to)) v)

/-- l.89-92: the norm.  The sum of `e * e.conjugate()` is a complex number with imaginary part zero. -/
noncomputable def vnorm (v : Dict N ℂ) : ℂ :=
  ((Real.sqrt (v.foldl (fun s kv => s + kv.2 * (starRingEnd ℂ) kv.2) 0).re : ℝ) : ℂ)

/-- l.95-105: the entries above the threshold are stored, divided by the norm. -/
noncomputable def store (thr : ℝ) (vect_from : N) (norm : ℂ) : List (N × ℂ) → G N ℂ × Bool → Except Err (G N ℂ × Bool)
  | [], s => .ok s
  | (k_to, edge) :: rest, s =>
    if |edge.re| + |edge.im| > thr then
      if norm = 0 then .error .zeroDivision
      else store thr vect_from norm rest
        ((((s.1.seqAdd vect_from k_to).reqAdd k_to vect_from).setEdge vect_from k_to (edge / norm)), true)
    else store thr vect_from norm rest s

/-- `generate_unitary_by_gram_schmidt`, l.65-105.  The dictionary `added_vect` is copied (l.69), the three dictionaries of the
matrix are changed in place. -/
noncomputable def gram_schmidt (thr : ℝ) (g : G N ℂ) (added_vect : Dict N ℂ) (vect_from : N) : Except Err (G N ℂ × Bool) := do
  let v ← g.seq.foldlM (fun v kv => project g.em kv.1 kv.2 v) added_vect
  store thr vect_from (vnorm v) v ({ g with seq := Dict.set g.seq vect_from [] }, false)

/-- l.108-110: `seq = defaultdict(set)`, filled from the keys of the edge map. -/
def rowsOf (edge_map : Dict (N × N) ℂ) : Dict N (List N) :=
  edge_map.foldl (fun d kv => Dict.set d kv.1.1 (sadd ((Dict.get? d kv.1.1).getD []) kv.1.2)) []

/-- l.117-119. -/
def rowVect (edge_map : Dict (N × N) ℂ) (k_f : N) (ks : List N) : Except Err (Dict N ℂ) :=
  ks.foldlM (fun v k_t => do
    let e ← Dict.get edge_map (k_f, k_t)
    pure (Dict.set v k_t e)) []

/-- l.116-123: the rows one after the other; `none` when nothing of a row is left. -/
noncomputable def unitary_rows (thr : ℝ) (edge_map : Dict (N × N) ℂ) (seq : Dict N (List N)) :
    List N → G N ℂ → Except Err (Option (G N ℂ))
  | [], g => .ok (some g)
  | k_f :: ks, g => do
    let v ← rowVect edge_map k_f ((Dict.get? seq k_f).getD [])
    let r ← gram_schmidt thr g v k_f
    if r.2 then unitary_rows thr edge_map seq ks r.1 else .ok none

/-- `edge_matrix_to_unitary_sre`, l.107-123.  `sort` is `sorted` on the nodes. -/
noncomputable def edge_matrix_to_unitary (thr : ℝ) (sort : List N → List N) (edge_map : Dict (N × N) ℂ) :
    Except Err (Option (G N ℂ)) :=
  let seq := rowsOf edge_map
  unitary_rows thr edge_map seq (sort (Dict.keys seq)) ⟨[], [], []⟩

end Sre
