import Mathlib.Analysis.Complex.Basic
import Verif.Py.Dict

/-!
# Model of the noise map and of the noise readout

Sources: `/repo/phasor/system/matrix_algorithm.py`, `/repo/phasor/readouts/noise.py`,
`/repo/phasor/system/system.py`, `/repo/phasor/signals/noise.py`, `/repo/phasor/electronics/noise.py`,
`/repo/phasor/mechanical/noise.py` and `/repo/phasor/optics/vacuum.py`.

Values are complex numbers: one frequency point, exact arithmetic, so every spectrum is finite and the branch
"BADNESS" (`noise.py` l.141-142) is not taken.  `P` are the port keys, `K` the keys at a port, `O` the noise objects
and `Nm` the names of the ports read out.  Dictionaries are lists of their items; `defaultdict` gives its default by
`getD`.  Not modelled: `field_space`, numpy arrays, and `external_collect`, which is always `None`
(`noise.py` l.67-75).
-/

set_option linter.unusedSectionVars false

namespace Noise
open Py

/-- A pair of nodes with the noise object correlating them, as stored by `noise_pair_insert`
(`matrix_algorithm.py` l.148). -/
structure Pair (P K O : Type) where
  pk1 : P × K
  pk2 : P × K
  nobj : O
deriving DecidableEq

variable {P K O Nm : Type} [DecidableEq P] [DecidableEq K] [DecidableEq O] [DecidableEq Nm]

/-- `_nmap`: pairs by their first and second node. -/
abbrev NMap (P K O : Type) := Dict (P × K) (Dict (P × K) (List (Pair P K O)))

/-- `_nmap` and `noise_pk_set` of the matrix algorithm. -/
structure St (P K O : Type) where
  nmap : NMap P K O
  pks : List (P × K)

/-- Adding to a set. -/
def sadd {α : Type} [DecidableEq α] (s : List α) (a : α) : List α := if a ∈ s then s else s ++ [a]

/-- The check of one node, `matrix_algorithm.py` l.134-139: `port_cplgs.get` gives `NOARG` for an unknown port, which
does not support `in`.  `base` is `purge_keys(PostBondKey)`. -/
def check (cplgs : Dict P (List K)) (base : P → P) (pk : P × K) : Except Err Unit :=
  match Dict.get? cplgs (base pk.1) with
  | none => .error .typeError
  | some ks => if pk.2 ∈ ks then .ok () else .error .runtime

/-- `matrix_algorithm.py` l.132-149, `noise_pair_insert`. -/
def noise_pair_insert (cplgs : Dict P (List K)) (base : P → P) (st : St P K O) (c : Pair P K O) :
    Except Err (St P K O) := do
  check cplgs base c.pk1
  check cplgs base c.pk2
  let inner := (Dict.get? st.nmap c.pk1).getD []
  let vals := (Dict.get? inner c.pk2).getD []
  pure ⟨Dict.set st.nmap c.pk1 (Dict.set inner c.pk2 (vals ++ [c])), sadd (sadd st.pks c.pk1) c.pk2⟩

/-- `matrix_algorithm.py` l.119-130, `_noise_map`: `calls` are the calls of `noise_pair_insert` made by the
`system_setup_noise` of all elements, in order. -/
def noise_map (cplgs : Dict P (List K)) (base : P → P) (calls : List (Pair P K O)) : Except Err (St P K O) :=
  calls.foldlM (noise_pair_insert cplgs base) ⟨[], []⟩

/-- `system.py` l.113-119, `adjust_PSD`; `val` is unbound for other values of `sided_spectra`. -/
def adjust_PSD (sided_spectra : ℤ) : Except Err ℂ :=
  if sided_spectra = 1 then .ok 2 else if sided_spectra = 2 then .ok 1 else .error .unboundLocal

/-! ## the sources -/

/-- `system_setup_noise` of the fluctuations: `SimpleNoiseBase` (`signals/noise.py` l.41-54, at `port.i`),
`VoltageFluctuation`, `CurrentFluctuation` (`electronics/noise.py` l.80-87 and l.165-172), `DisplacementFluctuation` and
`ForceFluctuation` (`mechanical/noise.py` l.80-87 and l.151-158, at `p_virt.o`): every key of the port with the key of
opposite frequency; `flip` is `k1.without_keys(ClassicalFreqKey) | {ClassicalFreqKey : -freq}`. -/
def pairs (keys : P → List K) (flip : K → K) (p : P) (o : O) : List (Pair P K O) :=
  (keys p).map (fun k => ⟨(p, k), (p, flip k), o⟩)

/-- `vacuum.py` l.41-52, `OpticalVacuumFluctuation.system_setup_noise`: every key with the key of the other kind of
field, `lower` tests for `LOWER`, `toR` and `toL` replace the `QuantumKey`. -/
def vacuum_pairs (keys : P → List K) (lower : K → Bool) (toR toL : K → K) (p : P) (o : O) : List (Pair P K O) :=
  (keys p).map (fun k => ⟨(p, k), (p, if lower k then toR k else toL k), o⟩)

/-- `electronics/noise.py` l.198-217 and l.246-266, `VoltageFluctuation2` and `CurrentFluctuation2`: the four pairs of
the two waves; `keys` are those of `port.o`, `out` is `ports_post_get(port.o)`. -/
def pairs2 (keys : P → List K) (flip : K → K) (i o out : P) (obj : O) : List (Pair P K O) :=
  (keys o).flatMap (fun k => [⟨(out, k), (out, flip k), obj⟩, ⟨(i, k), (out, flip k), obj⟩,
    ⟨(out, k), (i, flip k), obj⟩, ⟨(i, k), (i, flip k), obj⟩])

/-- `sided_conversions` (`electronics/noise.py` l.11-24) for the one-sided and the two-sided names. -/
def conversion (one_sided : Bool) : ℂ := if one_sided then 2 else 1

/-! ## the readout -/

/-- What `CSD_builds` returns. -/
structure Builds (O Nm : Type) where
  ncollect : Dict O (Dict (Nm × Nm) ℂ)
  nsums : Dict (Nm × Nm) ℂ

/-- `np.real`. -/
def npreal (z : ℂ) : ℂ := (z.re : ℂ)

/-- `pkviewsP` and `pkviewsN`, `noise.py` l.105-109. -/
def views (port_map : Dict Nm P) (key : K) : Dict Nm (P × K) := port_map.map (fun e => (e.1, (e.2, key)))

/-- The initial `nsums`, `noise.py` l.107-111. -/
def nsums_init (port_map : Dict Nm P) : Dict (Nm × Nm) ℂ :=
  port_map.foldl (fun d e => port_map.foldl (fun d e2 => Dict.set d (e.1, e2.1) 0) d) []

/-- `kvecsP` and `kvecsN`, `noise.py` l.113-121. -/
def kvecs (vs : Dict Nm (P × K)) (cm : Dict ((P × K) × (P × K)) ℂ) : Dict Nm (Dict (P × K) ℂ) :=
  cm.foldl (fun kv e => vs.foldl (fun kv v =>
    if e.1.2 = v.2 then Dict.set kv v.1 (Dict.set ((Dict.get? kv v.1).getD []) e.1.1 e.2) else kv) kv) []

/-- `noise.py` l.145. -/
def collect (nc : Dict O (Dict (Nm × Nm) ℂ)) (o : O) (ab : Nm × Nm) (v : ℂ) : Dict O (Dict (Nm × Nm) ℂ) :=
  let d := (Dict.get? nc o).getD []
  Dict.set nc o (Dict.set d ab ((Dict.get? d ab).getD 0 + v))

/-- `noise.py` l.135-139. -/
def pspec_tot (adjust : ℂ) (S : Pair P K O → ℂ) (a b : Nm) (cplg1 cplg2 : ℂ) (c : Pair P K O) : ℂ :=
  let tot := adjust * S c * cplg1 * cplg2
  if a = b then npreal tot else tot

/-- `noise.py` l.134-145, the innermost loop. -/
def over_vals (adjust : ℂ) (S : Pair P K O → ℂ) (a b : Nm) (cplg1 cplg2 : ℂ) (vals : List (Pair P K O))
    (st : ℂ × Dict O (Dict (Nm × Nm) ℂ)) : ℂ × Dict O (Dict (Nm × Nm) ℂ) :=
  vals.foldl (fun st c =>
    let v := pspec_tot adjust S a b cplg1 cplg2 c
    (st.1 + v, collect st.2 c.nobj (a, b) v)) st

/-- `noise.py` l.125-145, the loops over the two vectors. -/
def over_nodes (adjust : ℂ) (S : Pair P K O → ℂ) (nmap : NMap P K O) (a b : Nm) (kvecP kvecN : Dict (P × K) ℂ)
    (nc : Dict O (Dict (Nm × Nm) ℂ)) : ℂ × Dict O (Dict (Nm × Nm) ℂ) :=
  kvecP.foldl (fun st e1 =>
    match Dict.get? nmap e1.1 with
    | none => st
    | some inner => kvecN.foldl (fun st e2 =>
        match Dict.get? inner e2.1 with
        | none => st
        | some vals => over_vals adjust S a b e1.2 e2.2 vals st) st) (0, nc)

/-- `noise.py` l.77-150, `CSD_builds`: `cm` is `coupling_matrix_inv`, `S` calls `noise_2pt_expectation` of the noise
object of a pair. -/
def CSD_builds (port_map : Dict Nm P) (keyP keyN : K) (adjust : ℂ) (S : Pair P K O → ℂ)
    (cm : Dict ((P × K) × (P × K)) ℂ) (nmap : NMap P K O) : Builds O Nm :=
  let kP := kvecs (views port_map keyP) cm
  let kN := kvecs (views port_map keyN) cm
  kP.foldl (fun st a => kN.foldl (fun st b =>
    let r := over_nodes adjust S nmap a.1 b.1 a.2 b.2 st.ncollect
    ⟨r.2, Dict.set st.nsums (a.1, b.1) r.1⟩) st) ⟨[], nsums_init port_map⟩

/-- `AC.py` l.141-143, `AC_PSD`; the default `port_map` is `{'R' : portN}`. -/
def AC_PSD (R : Nm) (b : Builds O Nm) : Except Err ℂ := Dict.get b.nsums (R, R)

/-- `AC.py` l.145-151, `AC_PSD_by_source`; `subCSD` is a `defaultdict`. -/
def AC_PSD_by_source (R : Nm) (b : Builds O Nm) : Dict O ℂ :=
  b.ncollect.map (fun e => (e.1, (Dict.get? e.2 (R, R)).getD 0))

end Noise
