import Mathlib.Algebra.BigOperators.Field
import Mathlib.LinearAlgebra.Matrix.NonsingularInverse
import Verif.Graph.Props
import Verif.Readout.Model

/-!
# C81: sensitivities and loop gains

The couplings are those returned by the graph solver (`C13_inverse`).
-/

set_option linter.unusedSectionVars false

namespace Readout
open Py Inject

section net
variable {N V : Type} [DecidableEq N] [Fintype N] [Field V] [DecidableEq V]

/-- `x` solves the equations of the network for the sources `w`. -/
def Closed (g : Graph.G N V) (w x : N → V) : Prop := ∀ n, x n = (∑ r, Graph.gain g r n * x r) + w n

/-- The network opened at the node `c`: the field at `c` is held at `a`, the equations of all other nodes hold for the
sources `w`. -/
def Opened (g : Graph.G N V) (c : N) (a : V) (w y : N → V) : Prop :=
  y c = a ∧ ∀ n, n ≠ c → y n = (∑ r, Graph.gain g r n * y r) + w n

variable {g : Graph.G N V}

theorem closed_inv (hinv : IsUnit (1 - Graph.mat g)) {w x : N → V} (hx : Closed g w x) :
    x = (1 - Graph.mat g)⁻¹.mulVec w := by
  have : (1 - Graph.mat g).mulVec x = w := by
    funext n
    rw [Matrix.sub_mulVec, Matrix.one_mulVec, Pi.sub_apply]
    have h3 : ((Graph.mat g).mulVec x) n = ∑ r, Graph.gain g r n * x r := rfl
    rw [h3]
    linear_combination hx n
  rw [← this, Matrix.mulVec_mulVec, Matrix.nonsing_inv_mul _ ((Matrix.isUnit_iff_isUnit_det _).1 hinv), Matrix.one_mulVec]

theorem inv_closed (hinv : IsUnit (1 - Graph.mat g)) (w : N → V) : Closed g w ((1 - Graph.mat g)⁻¹.mulVec w) := by
  intro n
  have : (1 - Graph.mat g).mulVec ((1 - Graph.mat g)⁻¹.mulVec w) = w := by
    rw [Matrix.mulVec_mulVec, Matrix.mul_nonsing_inv _ ((Matrix.isUnit_iff_isUnit_det _).1 hinv), Matrix.one_mulVec]
  have h2 := congrFun this n
  rw [Matrix.sub_mulVec, Matrix.one_mulVec, Pi.sub_apply] at h2
  have h3 : ∀ x : N → V, ((Graph.mat g).mulVec x) n = ∑ r, Graph.gain g r n * x r := fun _ => rfl
  rw [h3] at h2
  linear_combination h2

/-- The column of the inverse of a driven node. -/
theorem closed_single (hinv : IsUnit (1 - Graph.mat g)) {c : N} {s : V} {x : N → V}
    (hx : Closed g (Pi.single c s) x) (n : N) : x n = (1 - Graph.mat g)⁻¹ n c * s := by
  rw [closed_inv hinv hx]
  change ∑ r, (1 - Graph.mat g)⁻¹ n r * (Pi.single c s : N → V) r = _
  rw [Finset.sum_eq_single c]
  · rw [Pi.single_eq_same]
  · intro r _ hr
    rw [Pi.single_eq_of_ne hr, mul_zero]
  · intro h
    exact absurd (Finset.mem_univ _) h

theorem single_closed (hinv : IsUnit (1 - Graph.mat g)) (c : N) :
    Closed g (Pi.single c 1) (fun n => (1 - Graph.mat g)⁻¹ n c) := by
  have h := inv_closed hinv (Pi.single c 1)
  have : (1 - Graph.mat g)⁻¹.mulVec (Pi.single c 1) = fun n => (1 - Graph.mat g)⁻¹ n c := by
    funext n
    rw [closed_single hinv h n, mul_one]
  rwa [this] at h

/-- Fields as those with the node `c` held at its value plus those with `c` held at zero. -/
theorem opened_split (hinv : IsUnit (1 - Graph.mat g)) {c : N} (hc : (1 - Graph.mat g)⁻¹ c c ≠ 0) {w x y z : N → V}
    (hx : Closed g w x) (hy : Opened g c 1 0 y) (hz : Opened g c 0 w z) (n : N) : x n = x c * y n + z n := by
  have hd : Closed g (Pi.single c (-(∑ r, Graph.gain g r c * (x r - x c * y r - z r))))
      (fun n => x n - x c * y n - z n) := by
    intro m
    by_cases hm : m = c
    · subst hm
      dsimp only
      rw [Pi.single_eq_same, hy.1, hz.1]
      ring
    · dsimp only
      rw [Pi.single_eq_of_ne hm, hx m, hy.2 m hm, hz.2 m hm]
      simp only [mul_sub, Finset.sum_sub_distrib, Pi.zero_apply, add_zero, Finset.mul_sum]
      have : ∑ r, x c * (Graph.gain g r m * y r) = ∑ r, Graph.gain g r m * (x c * y r) :=
        Finset.sum_congr rfl (fun r _ => by ring)
      rw [this]
      ring
  have h0 := closed_single hinv hd c
  rw [hy.1, hz.1] at h0
  have hs : -(∑ r, Graph.gain g r c * (x r - x c * y r - z r)) = 0 := by
    rcases mul_eq_zero.1 (show (1 - Graph.mat g)⁻¹ c c * _ = 0 by rw [← h0]; ring) with h | h
    · exact absurd h hc
    · exact h
  have h1 := closed_single hinv hd n
  rw [hs, mul_zero] at h1
  linear_combination h1

/-- There are fields of the opened network. -/
theorem opened_exists (hinv : IsUnit (1 - Graph.mat g)) {c : N} (hc : (1 - Graph.mat g)⁻¹ c c ≠ 0) :
    Opened g c 1 0 (fun n => (1 - Graph.mat g)⁻¹ n c / (1 - Graph.mat g)⁻¹ c c) := by
  refine ⟨div_self hc, fun n hn => ?_⟩
  have := single_closed hinv c n
  dsimp only at this ⊢
  rw [Pi.single_eq_of_ne hn, add_zero] at this
  rw [this, Finset.sum_div, Pi.zero_apply, add_zero]
  exact Finset.sum_congr rfl (fun r _ => by rw [mul_div_assoc])

end net

variable {P K V : Type} [DecidableEq P] [DecidableEq K] [Fintype P] [Fintype K] [Field V] [DecidableEq V]
variable {o : Graph.Opts (P × K) V} {g : Graph.G (P × K) V} {outs ins : List (P × K)} {r : Option (Dict (P × K) V)}
variable {em : Dict ((P × K) × (P × K)) V} {keyP keyN : K}

/-- A run of the solver on a network with one solution. -/
structure Run (o : Graph.Opts (P × K) V) (g : Graph.G (P × K) V) (outs ins : List (P × K))
    (em : Dict ((P × K) × (P × K)) V) : Prop where
  pick : ∀ l, l ≠ [] → o.pick l ∈ l
  neg : o.negative = false
  valid : Graph.Valid g
  inv : IsUnit (1 - Graph.mat g)
  solve : ∃ r, Graph.inverse_solve o outs ins none g = .ok (r, em)

theorem Run.cget (h : Run o g outs ins em) {d t : P × K} (hd : d ∈ ins) (ht : t ∈ outs) :
    cget em d t = (1 - Graph.mat g)⁻¹ t d := by
  obtain ⟨r, hs⟩ := h.solve
  have := Graph.C13_inverse h.pick h.valid (fun m hm => by cases hm) h.inv hs hd ht
  unfold Readout.cget
  rw [this, h.neg]
  simp [Graph.sgn]

/-- Without couplings between different keys a drive does not reach the other keys. -/
theorem no_mixing (hinv : IsUnit (1 - Graph.mat g)) (hmix : ∀ p q k k', k ≠ k' → Graph.gain g (p, k) (q, k') = 0)
    {p q : P} {k k' : K} (hk : k ≠ k') : (1 - Graph.mat g)⁻¹ (q, k') (p, k) = 0 := by
  have hx := single_closed hinv (p, k)
  have hy : Closed g (Pi.single (p, k) 1) (fun n => if n.2 = k then (1 - Graph.mat g)⁻¹ n (p, k) else 0) := by
    rintro ⟨q', l⟩
    dsimp only
    by_cases hl : l = k
    · subst hl
      rw [if_pos rfl]
      refine (hx (q', l)).trans ?_
      congr 1
      refine Finset.sum_congr rfl (fun r _ => ?_)
      by_cases hr : r.2 = l
      · rw [if_pos hr]
      · rw [if_neg hr, hmix r.1 q' r.2 l hr]
        simp
    · rw [if_neg hl, Pi.single_eq_of_ne (fun h : (q', l) = (p, k) => hl (congrArg Prod.snd h)), add_zero]
      symm
      apply Finset.sum_eq_zero
      intro r _
      by_cases hr : r.2 = k
      · rw [hmix r.1 q' r.2 l (fun h => hl (h ▸ hr)), zero_mul]
      · rw [if_neg hr, mul_zero]
  have := closed_single hinv hy (q, k')
  dsimp only at this
  rw [if_neg (Ne.symm hk), mul_one] at this
  exact this.symm

/-- **C81**: the sensitivity is the field at the upper sideband of the port when both sidebands of the drive have unit
amplitude. -/
theorem C81_sensitivity (h : Run o g outs ins em) (hPN : keyP ≠ keyN) {portN portD : P} {portDrv : Option P}
    (hP : (ac_drive portD portDrv, keyP) ∈ ins) (hN : (ac_drive portD portDrv, keyN) ∈ ins)
    (ht : (portN, keyP) ∈ outs) {x : P × K → V}
    (hx : Closed g (fun n => if n = (portDrv.getD portD, keyP) ∨ n = (portDrv.getD portD, keyN) then 1 else 0) x) :
    AC_sensitivity em keyP keyN portN portD portDrv = x (portN, keyP) := by
  unfold AC_sensitivity tot
  rw [h.cget hP ht, h.cget hN ht, closed_inv h.inv hx]
  change _ = ∑ r, (1 - Graph.mat g)⁻¹ (portN, keyP) r * _
  have : ∀ n : P × K, (if n = (portDrv.getD portD, keyP) ∨ n = (portDrv.getD portD, keyN) then (1 : V) else 0) =
      (if n = (portDrv.getD portD, keyP) then 1 else 0) + (if n = (portDrv.getD portD, keyN) then 1 else 0) := by
    intro n
    by_cases h1 : n = (portDrv.getD portD, keyP)
    · rw [if_pos (Or.inl h1), if_pos h1, if_neg (fun h2 : n = _ => hPN (congrArg Prod.snd (h1.symm.trans h2))), add_zero]
    · by_cases h2 : n = (portDrv.getD portD, keyN)
      · rw [if_pos (Or.inr h2), if_neg h1, if_pos h2, zero_add]
      · rw [if_neg (not_or.2 ⟨h1, h2⟩), if_neg h1, if_neg h2, add_zero]
  simp only [this, mul_add, mul_ite, mul_one, mul_zero, Finset.sum_add_distrib, Finset.sum_ite_eq', Finset.mem_univ, if_true]
  rfl

/-- **C81**: driven at the port `portD`, the open loop sensitivity is the field at the readout when the field at `portD` is
held at one, whatever loops the network closes through `portD`; keys must not mix. -/
theorem C81_open_loop (h : Run o g outs ins em) (hPN : keyP ≠ keyN) {portN portD : P}
    (hmix : ∀ p q k k', k ≠ k' → Graph.gain g (p, k) (q, k') = 0)
    (hP : (portD, keyP) ∈ ins) (hN : (portD, keyN) ∈ ins) (hn : (portN, keyP) ∈ outs) (hd : (portD, keyP) ∈ outs)
    {v : V} (hv : AC_sensitivityOL em keyP keyN portN portD none = .ok v) {y : P × K → V}
    (hy : Opened g (portD, keyP) 1 0 y) : v = y (portN, keyP) := by
  unfold AC_sensitivityOL tot ac_drive at hv
  dsimp only [Option.getD_none] at hv
  rw [h.cget hP hn, h.cget hN hn, h.cget hP hd, h.cget hN hd, no_mixing h.inv hmix (Ne.symm hPN),
    no_mixing h.inv hmix (Ne.symm hPN), add_zero, add_zero] at hv
  unfold pdiv at hv
  split_ifs at hv with h0
  injection hv with hv
  have := opened_split h.inv h0 (single_closed h.inv (portD, keyP)) hy (z := 0)
    ⟨rfl, fun n hn => by rw [Pi.single_eq_of_ne hn]; simp⟩ (portN, keyP)
  rw [← hv, this, Pi.zero_apply, add_zero, mul_div_cancel_left₀ _ h0]

/-- **C81**: with `L` the gain once around the loop, the field arriving at the port when the field leaving it is one, the
closed loop gain is `1 / (1 - L)` and the open loop gain is `-L`. -/
theorem C81_loop_gain (h : Run o g outs ins em) (hPN : keyP ≠ keyN) {portAct portSense : Option P} {p : P}
    (hp : portSense.or portAct = some p)
    (hmix : ∀ p q k k', k ≠ k' → Graph.gain g (p, k) (q, k') = 0)
    (hP : (p, keyP) ∈ ins) (hN : (p, keyN) ∈ ins) (ht : (p, keyP) ∈ outs)
    {v : V} (hv : OLG em keyP keyN portAct portSense = .ok v) {y : P × K → V} (hy : Opened g (p, keyP) 1 0 y) :
    let L := ∑ n, Graph.gain g n (p, keyP) * y n
    1 - L ≠ 0 ∧ CLG em keyP keyN portAct portSense = 1 / (1 - L) ∧ v = -L := by
  intro L
  have hC : CLG em keyP keyN portAct portSense = (1 - Graph.mat g)⁻¹ (p, keyP) (p, keyP) := by
    have : CLG em keyP keyN portAct portSense = tot em keyP keyN p p := by
      unfold CLG
      cases portSense with
      | some q => injection hp with hp; subst hp; rfl
      | none =>
        cases portAct with
        | some q => injection hp with hp; subst hp; rfl
        | none => cases hp
    rw [this]
    unfold tot
    rw [h.cget hP ht, h.cget hN ht, no_mixing h.inv hmix (Ne.symm hPN), add_zero]
  unfold OLG at hv
  rw [hC] at hv ⊢
  unfold pdiv at hv
  split_ifs at hv with h0
  injection hv with hv
  have hs := opened_split h.inv h0 (single_closed h.inv (p, keyP)) hy (z := 0)
    ⟨rfl, fun n hn => by rw [Pi.single_eq_of_ne hn]; simp⟩
  simp only [Pi.zero_apply, add_zero] at hs
  have hc := single_closed h.inv (p, keyP) (p, keyP)
  dsimp only at hc
  rw [Pi.single_eq_same] at hc
  have hL : (1 - Graph.mat g)⁻¹ (p, keyP) (p, keyP) * (1 - L) = 1 := by
    have : ∑ r, Graph.gain g r (p, keyP) * (1 - Graph.mat g)⁻¹ r (p, keyP) = (1 - Graph.mat g)⁻¹ (p, keyP) (p, keyP) * L := by
      rw [Finset.mul_sum]
      refine Finset.sum_congr rfl (fun n _ => ?_)
      rw [hs n]
      ring
    rw [this] at hc
    linear_combination hc
  have h1 : 1 - L ≠ 0 := fun e => by rw [e, mul_zero] at hL; exact zero_ne_one hL
  have hinv : (1 - Graph.mat g)⁻¹ (p, keyP) (p, keyP) = 1 / (1 - L) := by
    rw [eq_div_iff h1, hL]
  refine ⟨h1, hinv, ?_⟩
  rw [← hv, div_eq_iff h0]
  linear_combination (norm := ring_nf) -hL

/-- **C81**: the plant is the field at the sensor when the field at the actuator is held at one, whatever loops the network
closes, if the drive is the actuator or reaches the sensor through the actuator only (with the actuator held at zero the
sensor sees nothing). -/
theorem C81_plant (h : Run o g outs ins em) {portAct portSense drv : P} {portDrv : Option P}
    (hdrv : lg_drive (some portAct) (some portSense) portDrv = .ok drv)
    (hA : (portAct, keyP) ∈ ins) (hD : (drv, keyP) ∈ ins) (hs : (portSense, keyP) ∈ outs) (ha : (portAct, keyP) ∈ outs)
    {v : V} (hv : GPlant em keyP portAct portSense portDrv = .ok v) {y : P × K → V}
    (hy : Opened g (portAct, keyP) 1 0 y)
    (hz : drv = portAct ∨ cget em (portAct, keyP) (portAct, keyP) ≠ 0 ∧
      ∃ z, Opened g (portAct, keyP) 0 (Pi.single (drv, keyP) 1) z ∧ z (portSense, keyP) = 0) :
    v = y (portSense, keyP) := by
  unfold GPlant at hv
  rw [hdrv] at hv
  change pdiv _ _ = _ at hv
  rw [h.cget hD hs, h.cget hD ha] at hv
  rw [h.cget hA ha] at hz
  unfold pdiv at hv
  split_ifs at hv with h0
  injection hv with hv
  have key : (1 - Graph.mat g)⁻¹ (portSense, keyP) (drv, keyP) =
      (1 - Graph.mat g)⁻¹ (portAct, keyP) (drv, keyP) * y (portSense, keyP) := by
    rcases hz with rfl | ⟨hc, z, hz, hz0⟩
    · have := opened_split h.inv h0 (single_closed h.inv (drv, keyP)) hy (z := 0)
        ⟨rfl, fun n hn => by rw [Pi.single_eq_of_ne hn]; simp⟩ (portSense, keyP)
      rwa [Pi.zero_apply, add_zero] at this
    · have := opened_split h.inv hc (single_closed h.inv (drv, keyP)) hy hz (portSense, keyP)
      rwa [hz0, add_zero] at this
  rw [← hv, key, mul_div_cancel_left₀ _ h0]

end Readout
