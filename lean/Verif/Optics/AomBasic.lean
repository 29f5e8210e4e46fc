import Verif.Optics.Reality
import Verif.Signal.Product
import Verif.Signal.StateSpaceProps

/-!
# The basic acousto-optic modulator (C135)

Source: `/repo/phasor/optics/AOMBasic.py`.
-/

set_option linter.unusedSectionVars false

namespace Optics
open Py Inject Circuit
open Signal (Balanced keyed_sum total_flatMap total_single)

variable {P O K R F : Type} [DecidableEq P] [DecidableEq O] [DecidableEq K] [AddCommGroup K] [Field F] [StarRing F]
  [DecidableEq F] [Ring R] [LinearOrder R] [IsStrictOrderedRing R]

/-! ## model -/

/-- An `AOMBasic`, l.16-45: the ports, the input `Drv.i` of the drive and the output `Drv_Pwr.MS.o` of its mean square. -/
structure AomBasic (P : Type) where
  po_Fr : Port P
  po_Bk : Port P
  Drv : P
  MS : P

section
variable (env : OEnv P O K F) (center : K → R)

/-- `pknorm_func`, l.193, for one frequency point; `env.sqrt` is the power to the half. -/
def pknorm_func (val : F) : F := if val ≠ 0 then env.sqrt (2 * val) else 10 ^ 8

/-- `neg`, l.169-175. -/
def aom_neg : Quantum → R
  | .lower => 1
  | .raise => -1

/-- `ckeyO`, l.169-175. -/
def aom_ckeyO (q : Quantum) (ckey drv_ckey : K) : K :=
  match q with
  | .lower => ckey + drv_ckey
  | .raise => ckey - drv_ckey

/-- One turn of the loop over the ports, l.161-196; `center` is `classical_frequency_extract_center`. -/
def AomBasic.way (e : AomBasic P) (port pto : Port P) (direction : R) : List (Coupling P (Key O K) F) :=
  (env.okeys port.i).flatMap (fun kfrom => (env.skeys e.Drv).flatMap (fun drv_ckey =>
    if env.reject (aom_ckeyO kfrom.q kfrom.cls drv_ckey) then [] else
      if aom_neg kfrom.q * center drv_ckey * direction ≤ 0 then [] else
        [.tripletNorm (on port.i kfrom) (sn e.Drv drv_ckey) (on pto.o (kfrom.at (aom_ckeyO kfrom.q kfrom.cls drv_ckey)))
          (sn e.MS 0) 1 (pknorm_func env)]))

/-- `system_setup_coupling`, l.146-197. -/
def AomBasic.setup (e : AomBasic P) : List (Coupling P (Key O K) F) :=
  e.way env center e.po_Fr e.po_Bk 1 ++ e.way env center e.po_Bk e.po_Fr (-1)

end

/-! ## sums -/

variable {env : OEnv P O K F} {center : K → R}

/-- The component `d` of the drive takes light of this kind further: its frequency is positive for lowering fields that go from
the front to the back, and so on. -/
def Drives (center : K → R) (q : Quantum) (direction : R) (d : K) : Prop := 0 < aom_neg q * center d * direction

instance (q : Quantum) (direction : R) (d : K) : Decidable (Drives center q direction d) :=
  inferInstanceAs (Decidable (0 < _))

theorem ckeyO_at (k j : OKey O K) (d : K) :
    k.at (aom_ckeyO k.q k.cls d) = j ↔ k = j.at (aom_ckeyO j.q j.cls (-d)) := by
  obtain ⟨o, f, p, q⟩ := k
  obtain ⟨o', f', p', q'⟩ := j
  cases q <;> cases q' <;> simp [OKey.at, aom_ckeyO]
  · exact fun _ _ => ⟨fun h => by rw [← h]; abel, fun h => by rw [h]; abel⟩
  · exact fun _ _ => ⟨fun h => by rw [← h]; abel, fun h => by rw [h]; abel⟩

theorem way_total (e : AomBasic P) (port pto : Port P) (direction : R) (x : P × Key O K → F)
    (hn : (env.okeys port.i).Nodup) (hx : ∀ k, k ∉ env.okeys port.i → x (on port.i k) = 0) (p : P) (j : OKey O K) :
    total (e.way env center port pto direction) x (on p j) = ((env.skeys e.Drv).map (fun d =>
      if pto.o = p ∧ env.reject j.cls = false ∧ Drives center j.q direction d then
        x (on port.i (j.at (aom_ckeyO j.q j.cls (-d)))) * x (sn e.Drv d) / pknorm_func env (x (sn e.MS 0)) else 0)).sum := by
  unfold AomBasic.way
  rw [total_flatMap]
  simp only [total_flatMap]
  rw [sum_swap]
  congr 1
  apply List.map_congr_left
  intro d _
  set k₀ := j.at (aom_ckeyO j.q j.cls (-d)) with hk₀
  have hj : k₀.at (aom_ckeyO k₀.q k₀.cls d) = j := (ckeyO_at k₀ j d).2 rfl
  have hterm : ∀ k : OKey O K, total (if env.reject (aom_ckeyO k.q k.cls d) then [] else
      if aom_neg k.q * center d * direction ≤ 0 then [] else
        [Coupling.tripletNorm (on port.i k) (sn e.Drv d) (on pto.o (k.at (aom_ckeyO k.q k.cls d)))
          (sn e.MS 0) 1 (pknorm_func env)]) x (on p j)
      = if k = k₀ then (if pto.o = p ∧ env.reject j.cls = false ∧ Drives center j.q direction d then
        x (on port.i k₀) * x (sn e.Drv d) / pknorm_func env (x (sn e.MS 0)) else 0) else 0 := by
    intro k
    by_cases hk : k = k₀
    · subst hk
      rw [if_pos rfl]
      have hq : k₀.q = j.q := rfl
      have hc : aom_ckeyO k₀.q k₀.cls d = j.cls := by rw [← hj]; rfl
      rw [hj, hc]
      by_cases hr : env.reject j.cls = true
      · rw [if_pos hr, if_neg (by rintro ⟨_, h, _⟩; rw [hr] at h; cases h)]; rfl
      · rw [if_neg hr]
        have hr' : env.reject j.cls = false := by simpa using hr
        by_cases hd : aom_neg k₀.q * center d * direction ≤ 0
        · rw [if_pos hd, if_neg (by rintro ⟨_, _, h⟩; exact absurd h (not_lt.2 (hq ▸ hd)))]; rfl
        · rw [if_neg hd, total_single]
          have hd' : Drives center j.q direction d := not_le.1 (hq ▸ hd)
          show (if on pto.o j = on p j then 1 * x (on port.i k₀) * x (sn e.Drv d) / pknorm_func env (x (sn e.MS 0)) else 0) = _
          by_cases hp : pto.o = p
          · rw [if_pos (by rw [hp]), if_pos ⟨hp, hr', hd'⟩, one_mul]
          · rw [if_neg (fun h => hp (congrArg Prod.fst h)), if_neg (fun h => hp h.1)]
    · rw [if_neg hk]
      split_ifs
      · rfl
      · rfl
      · rw [total_single]
        show (if on pto.o (k.at (aom_ckeyO k.q k.cls d)) = on p j then _ else 0) = _
        rw [if_neg]
        intro h
        injection h with _ h
        injection h with h
        exact hk ((ckeyO_at k j d).1 h)
  simp only [hterm]
  by_cases hm : k₀ ∈ env.okeys port.i
  · rw [keyed_sum hn hm _ (fun k' _ hk => if_neg hk), if_pos rfl]
  · rw [hx k₀ hm, zero_mul, zero_div]
    simp

/-! ## C135 -/

/-- **C135, shifts.**  The modulator sends to the back, at each frequency, the light which came to the front lower by the frequency of a
component of the drive, times that component over the root of twice the mean square of the drive; to the front it sends the
light which came to the back higher by it.  (For raising fields, whose drive is at the negative frequency, the same.) -/
theorem C135_shift (e : AomBasic P) (hne : e.po_Fr.o ≠ e.po_Bk.o) (x : P × Key O K → F)
    (hn : ∀ p, (env.okeys p).Nodup) (hx : ∀ p k, k ∉ env.okeys p → x (on p k) = 0) (j : OKey O K)
    (hr : env.reject j.cls = false) (hms : x (sn e.MS 0) ≠ 0) :
    ((e.setup env center).map (fun c => c.into x (on e.po_Bk.o j))).sum = ((env.skeys e.Drv).map (fun d =>
      if 0 < (if j.q = .lower then center d else -center d) then
        x (on e.po_Fr.i (j.at (if j.q = .lower then j.cls - d else j.cls + d))) * x (sn e.Drv d) / env.sqrt (2 * x (sn e.MS 0))
      else 0)).sum ∧
    ((e.setup env center).map (fun c => c.into x (on e.po_Fr.o j))).sum = ((env.skeys e.Drv).map (fun d =>
      if (if j.q = .lower then center d else -center d) < 0 then
        x (on e.po_Bk.i (j.at (if j.q = .lower then j.cls - d else j.cls + d))) * x (sn e.Drv d) / env.sqrt (2 * x (sn e.MS 0))
      else 0)).sum := by
  have hf : ∀ d, aom_ckeyO j.q j.cls (-d) = if j.q = .lower then j.cls - d else j.cls + d := by
    intro d
    cases j.q <;> simp [aom_ckeyO, sub_eq_add_neg]
  have hN : pknorm_func env (x (sn e.MS 0)) = env.sqrt (2 * x (sn e.MS 0)) := if_pos hms
  constructor
  · show total (e.setup env center) x (on e.po_Bk.o j) = _
    unfold AomBasic.setup
    rw [total_append, way_total e _ _ _ x (hn _) (hx _), way_total e _ _ _ x (hn _) (hx _)]
    simp only [hne, false_and, if_false, true_and, hr]
    rw [List.map_const', List.sum_replicate, smul_zero, add_zero]
    congr 1
    apply List.map_congr_left
    intro d _
    rw [hf, hN]
    refine if_congr ?_ rfl rfl
    cases j.q <;> simp [Drives, aom_neg]
  · show total (e.setup env center) x (on e.po_Fr.o j) = _
    unfold AomBasic.setup
    rw [total_append, way_total e _ _ _ x (hn _) (hx _), way_total e _ _ _ x (hn _) (hx _)]
    simp only [hne.symm, false_and, if_false, true_and, hr]
    rw [List.map_const', List.sum_replicate, smul_zero, zero_add]
    congr 1
    apply List.map_congr_left
    intro d _
    rw [hf, hN]
    refine if_congr ?_ rfl rfl
    cases j.q <;> simp [Drives, aom_neg]

theorem neg_drives (hc : ∀ k, center (-k) = -center k) (q : Quantum) {direction : R} (hdir : direction = 1 ∨ direction = -1) {d : K}
    (h0 : center d ≠ 0) : Drives center q direction (-d) ↔ ¬ Drives center q direction d := by
  unfold Drives
  rw [hc, not_lt]
  have hne : aom_neg q * center d * direction ≠ 0 := by
    rcases hdir with rfl | rfl <;> cases q <;> simpa [aom_neg] using h0
  have : aom_neg q * -center d * direction = -(aom_neg q * center d * direction) := by
    rw [mul_neg, neg_mul]
  rw [this, neg_pos]
  exact ⟨le_of_lt, fun h => lt_of_le_of_ne h hne⟩

/-- Half of a balanced set of components drives. -/
theorem half_drives (hc : ∀ k, center (-k) = -center k) (q : Quantum) {direction : R} (hdir : direction = 1 ∨ direction = -1)
    {ks : List K} (hb : Balanced ks) (h0 : ∀ d ∈ ks, center d ≠ 0) {g : K → F} (hg : ∀ d, g (-d) = g d) :
    (ks.map g).sum = 2 * (ks.map (fun d => if Drives center q direction d then g d else 0)).sum := by
  have e1 : (ks.map (fun d => if Drives center q direction d then g d else 0)).sum
      = (ks.map (fun d => if Drives center q direction d then 0 else g d)).sum := by
    rw [neg_sum hb]
    congr 1
    apply List.map_congr_left
    intro d hd
    rw [hg]
    by_cases h : Drives center q direction d
    · rw [if_pos h, if_neg (fun h' => (neg_drives hc q hdir (h0 d hd)).1 h' h)]
    · rw [if_neg h, if_pos ((neg_drives hc q hdir (h0 d hd)).2 h)]
  rw [two_mul]
  conv_rhs => rw [e1]
  conv_rhs => enter [2]; rw [← e1]
  rw [← List.sum_map_add]
  congr 1
  apply List.map_congr_left
  intro d _
  split_ifs <;> simp

theorem abs_once {ks : List K} (hn : ks.Nodup) {c : K → Prop} [DecidablePred c] (hc : ∀ d ∈ ks, ∀ d' ∈ ks, c d → c d' → d = d') (v : K → F) :
    (ks.map (fun d => if c d then v d else 0)).sum * star (ks.map (fun d => if c d then v d else 0)).sum
      = (ks.map (fun d => if c d then v d * star (v d) else 0)).sum := by
  by_cases h : ∃ d ∈ ks, c d
  · obtain ⟨d, hd, hcd⟩ := h
    have z : ∀ (w : K → F), ∀ k' ∈ ks, k' ≠ d → (if c k' then w k' else 0) = 0 :=
      fun w k' hk' hne => if_neg (fun h' => hne (hc k' hk' d hd h' hcd))
    rw [keyed_sum hn hd _ (z v), keyed_sum hn hd _ (z fun d => v d * star (v d)), if_pos hcd, if_pos hcd]
  · have z : ∀ (w : K → F), (ks.map (fun d => if c d then w d else 0)).sum = 0 := by
      intro w
      apply List.sum_eq_zero
      intro y hy
      obtain ⟨d, hd, rfl⟩ := List.mem_map.1 hy
      exact if_neg (fun h' => h ⟨d, hd, h'⟩)
    rw [z v, z fun d => v d * star (v d), zero_mul]

theorem sum_if_one {α : Type} [DecidableEq α] {l : List α} (hn : l.Nodup) {a : α} (ha : a ∈ l) (v : F) :
    (l.map (fun j => if j = a then v else 0)).sum = v := by
  have := sum_unique (fun j : α => j) (fun _ => v) (l := l) (by simpa using hn) ha
  exact this

theorem setup_out (e : AomBasic P) (hne : e.po_Fr.o ≠ e.po_Bk.o) {port pto : Port P} {direction : R}
    (hdir : (port, pto, direction) = (e.po_Fr, e.po_Bk, 1) ∨ (port, pto, direction) = (e.po_Bk, e.po_Fr, -1))
    (x : P × Key O K → F) (hn : ∀ p, (env.okeys p).Nodup) (hx : ∀ p k, k ∉ env.okeys p → x (on p k) = 0) (j : OKey O K) :
    total (e.setup env center) x (on pto.o j) = ((env.skeys e.Drv).map (fun d =>
      if env.reject j.cls = false ∧ Drives center j.q direction d then
        x (on port.i (j.at (aom_ckeyO j.q j.cls (-d)))) * x (sn e.Drv d) / pknorm_func env (x (sn e.MS 0)) else 0)).sum := by
  unfold AomBasic.setup
  rcases hdir with h | h <;> (injection h with h1 h; injection h with h2 h3; subst h1; subst h2; subst h3)
  · rw [total_append, way_total e _ _ _ x (hn _) (hx _), way_total e _ _ _ x (hn _) (hx _)]
    simp only [hne, false_and, if_false, true_and]
    rw [List.map_const', List.sum_replicate, smul_zero, add_zero]
  · rw [total_append, way_total e _ _ _ x (hn _) (hx _), way_total e _ _ _ x (hn _) (hx _)]
    simp only [hne.symm, false_and, if_false, true_and]
    rw [List.map_const', List.sum_replicate, smul_zero, zero_add]

theorem ckeyO_inj {k : OKey O K} {d d' : K} (h : k.at (aom_ckeyO k.q k.cls d) = k.at (aom_ckeyO k.q k.cls d')) : d = d' := by
  have h' : aom_ckeyO k.q k.cls d = aom_ckeyO k.q k.cls d' := congrArg OKey.cls h
  cases hq : k.q <;> rw [hq] at h' <;> simpa [aom_ckeyO] using h'

/-- The mean square of a real drive without components at zero frequency. -/
theorem drive_power [CharZero F] {e : AomBasic P} {x : P × Key O K → F} (hc : ∀ k, center (-k) = -center k)
    (hb : Balanced (env.skeys e.Drv)) (h0 : ∀ d ∈ env.skeys e.Drv, center d ≠ 0)
    (hreal : ∀ d, x (sn e.Drv (-d)) = star (x (sn e.Drv d)))
    {R' : Type} [AddCommGroup R'] [LinearOrder R'] [IsOrderedAddMonoid R'] {senv : Signal.SEnv P K R' F}
    (hkeys : senv.keys e.Drv = env.skeys e.Drv) (hrej : ∀ d ∈ env.skeys e.Drv, senv.reject (-d) = false)
    (ht : ∀ k : K, -k = k → k = 0)
    (hMS : x (sn e.MS 0) = total (Signal.mean_square_setup senv e.Drv e.MS) (fun t => x (t.1, .sig t.2)) (e.MS, 0))
    (q : Quantum) {direction : R} (hdir : direction = 1 ∨ direction = -1) :
    2 * x (sn e.MS 0) = ((env.skeys e.Drv).map (fun d =>
      if Drives center q direction d then x (sn e.Drv d) * star (x (sn e.Drv d)) else 0)).sum := by
  have h := Signal.C62_power (env := senv) two_ne_zero ht e.Drv e.MS (by rw [hkeys]; exact hb) (by rw [hkeys]; exact hrej)
    (x := fun t => x (t.1, .sig t.2)) hreal hMS
  rw [hkeys] at h
  have hz : center 0 = 0 := by
    have h1 := hc 0
    rw [neg_zero] at h1
    have h2 : (2 : R) * center 0 = 0 := by
      rw [two_mul]; nth_rewrite 2 [h1]; exact add_neg_cancel _
    rcases mul_eq_zero.1 h2 with h3 | h3
    · exact absurd h3 two_ne_zero
    · exact h3
  have e1 : (env.skeys e.Drv).map (fun k => if k = 0 then x (sn e.Drv 0) * star (x (sn e.Drv 0)) else
      x (sn e.Drv k) * star (x (sn e.Drv k)) / 4)
      = (env.skeys e.Drv).map (fun k => x (sn e.Drv k) * star (x (sn e.Drv k)) * (1 / 4)) := by
    apply List.map_congr_left
    intro d hd
    rw [if_neg (fun h => h0 d hd (by rw [h, hz]))]
    ring
  have h' : x (sn e.MS 0) = ((env.skeys e.Drv).map (fun k => x (sn e.Drv k) * star (x (sn e.Drv k)) * (1 / 4))).sum := by
    rw [← e1]; exact h
  rw [h', List.sum_map_mul_right,
    half_drives (center := center) hc q hdir hb h0 (g := fun d => x (sn e.Drv d) * star (x (sn e.Drv d)))
      (fun d => by rw [hreal, star_star, mul_comm])]
  ring

/-- **C135, power (in part).**  Light at one frequency leaves with all of its power, distributed over the frequencies of the drive: for any real
drive without components at zero frequency which does not vanish, with the mean square that the detector of the modulator gives, the
powers of the fields at the back add up to the power at the front; from the back to the front likewise.  Missing: drives that
vanish, see `C135_idle_refuted`, and drives with a component at zero frequency, which counts in the mean square but drives nothing. -/
theorem C135_power_partial [CharZero F] (e : AomBasic P) (hne : e.po_Fr.o ≠ e.po_Bk.o) (x : P × Key O K → F)
    (hn : ∀ p, (env.okeys p).Nodup) (hx : ∀ p k, k ∉ env.okeys p → x (on p k) = 0)
    (hc : ∀ k, center (-k) = -center k) (hb : Balanced (env.skeys e.Drv)) (h0 : ∀ d ∈ env.skeys e.Drv, center d ≠ 0)
    (hreal : ∀ d, x (sn e.Drv (-d)) = star (x (sn e.Drv d)))
    {R' : Type} [AddCommGroup R'] [LinearOrder R'] [IsOrderedAddMonoid R'] (senv : Signal.SEnv P K R' F)
    (hkeys : senv.keys e.Drv = env.skeys e.Drv) (hrej : ∀ d ∈ env.skeys e.Drv, senv.reject (-d) = false)
    (ht : ∀ k : K, -k = k → k = 0)
    (hMS : x (sn e.MS 0) = total (Signal.mean_square_setup senv e.Drv e.MS) (fun t => x (t.1, .sig t.2)) (e.MS, 0))
    (hms : x (sn e.MS 0) ≠ 0)
    (hroot : env.sqrt (2 * x (sn e.MS 0)) * star (env.sqrt (2 * x (sn e.MS 0))) = 2 * x (sn e.MS 0))
    {port pto : Port P} {direction : R}
    (hdir : (port, pto, direction) = (e.po_Fr, e.po_Bk, 1) ∨ (port, pto, direction) = (e.po_Bk, e.po_Fr, -1))
    {k : OKey O K} (hone : ∀ k', k' ≠ k → x (on port.i k') = 0) {outs : List (OKey O K)} (ho : outs.Nodup)
    (hall : ∀ f, env.reject f = false → k.at f ∈ outs)
    (hr : ∀ d ∈ env.skeys e.Drv, env.reject (k.cls + d) = false) :
    (outs.map (fun j => ((e.setup env center).map (fun c => c.into x (on pto.o j))).sum
      * star ((e.setup env center).map (fun c => c.into x (on pto.o j))).sum)).sum
      = x (on port.i k) * star (x (on port.i k)) := by
  have hd1 : direction = 1 ∨ direction = -1 := by
    rcases hdir with h | h
    · left; injection h with _ h; injection h
    · right; injection h with _ h; injection h
  set N := pknorm_func env (x (sn e.MS 0)) with hN
  have hN' : N = env.sqrt (2 * x (sn e.MS 0)) := if_pos hms
  have hrj : ∀ d ∈ env.skeys e.Drv, env.reject (aom_ckeyO k.q k.cls d) = false := by
    intro d hd
    cases k.q
    · exact hr d hd
    · have := hr (-d) (hb.2 d hd)
      rwa [← sub_eq_add_neg] at this
  have hout : ∀ j, ((e.setup env center).map (fun c => c.into x (on pto.o j))).sum = ((env.skeys e.Drv).map (fun d =>
      if Drives center k.q direction d ∧ j = k.at (aom_ckeyO k.q k.cls d) then x (on port.i k) * x (sn e.Drv d) / N else 0)).sum := by
    intro j
    show total _ _ _ = _
    rw [setup_out e hne hdir x hn hx j, ← hN]
    congr 1
    apply List.map_congr_left
    intro d hd
    by_cases hj : j = k.at (aom_ckeyO k.q k.cls d)
    · have hk : k = j.at (aom_ckeyO j.q j.cls (-d)) := (ckeyO_at k j d).1 hj.symm
      have hq : j.q = k.q := by rw [hj]; rfl
      have hcl : j.cls = aom_ckeyO k.q k.cls d := by rw [hj]; rfl
      rw [← hk, hq, hcl, hrj d hd]
      simp only [true_and, hj, and_true]
    · have hk : j.at (aom_ckeyO j.q j.cls (-d)) ≠ k := fun h => hj ((ckeyO_at k j d).2 h.symm).symm
      rw [hone _ hk, zero_mul, zero_div, ite_self, if_neg (fun h => hj h.2)]
  have hsq : ∀ j, ((e.setup env center).map (fun c => c.into x (on pto.o j))).sum
      * star ((e.setup env center).map (fun c => c.into x (on pto.o j))).sum = ((env.skeys e.Drv).map (fun d =>
      if Drives center k.q direction d ∧ j = k.at (aom_ckeyO k.q k.cls d) then
        x (on port.i k) * x (sn e.Drv d) / N * star (x (on port.i k) * x (sn e.Drv d) / N) else 0)).sum := by
    intro j
    rw [hout]
    exact abs_once hb.1 (fun d _ d' _ h h' => ckeyO_inj (h.2.symm.trans h'.2)) _
  simp only [hsq]
  rw [sum_swap]
  have hin : ∀ d ∈ env.skeys e.Drv, (outs.map (fun j => if Drives center k.q direction d ∧ j = k.at (aom_ckeyO k.q k.cls d) then
        x (on port.i k) * x (sn e.Drv d) / N * star (x (on port.i k) * x (sn e.Drv d) / N) else 0)).sum
      = (if Drives center k.q direction d then x (sn e.Drv d) * star (x (sn e.Drv d)) else 0)
        * (x (on port.i k) * star (x (on port.i k)) / (2 * x (sn e.MS 0))) := by
    intro d hd
    by_cases hD : Drives center k.q direction d
    · simp only [hD, true_and, if_true]
      rw [sum_if_one ho (hall _ (hrj d hd)), ← hroot, hN', Signal.star_div_, star_mul']
      rw [div_mul_div_comm, mul_div_assoc']
      congr 1
      ring
    · simp [hD]
  rw [List.map_congr_left hin, List.sum_map_mul_right,
    ← drive_power hc hb h0 hreal hkeys hrej ht hMS k.q hd1]
  have h2 : (2 : F) * x (sn e.MS 0) ≠ 0 := mul_ne_zero two_ne_zero hms
  field_simp

/-- **C135, the way back.**  What the modulator does from the back to the front is the adjoint of what it does from the front to the
back: with a real drive, the factor from `k` at the front to `j` at the back is the conjugate of that from `j` at the back to `k` at the
front. -/
theorem C135_back (e : AomBasic P) (hc : ∀ k, center (-k) = -center k) {x : P × Key O K → F}
    (hreal : ∀ d, x (sn e.Drv (-d)) = star (x (sn e.Drv d))) {N : F} (hN : N = pknorm_func env (x (sn e.MS 0))) (hNr : star N = N)
    (hb : Balanced (env.skeys e.Drv)) {k j : OKey O K} (hk : k ∈ env.okeys e.po_Fr.i) (hj : j ∈ env.okeys e.po_Bk.i)
    (hn : ∀ p, (env.okeys p).Nodup) (hrk : env.reject k.cls = false) (hrj : env.reject j.cls = false) (hne : e.po_Fr.o ≠ e.po_Bk.o)
    {u v : P × Key O K → F} (hu : ∀ p i, u (on p i) = if (p, i) = (e.po_Fr.i, k) then 1 else 0)
    (hv : ∀ p i, v (on p i) = if (p, i) = (e.po_Bk.i, j) then 1 else 0)
    (hus : ∀ p f, u (sn p f) = x (sn p f)) (hvs : ∀ p f, v (sn p f) = x (sn p f)) :
    ((e.setup env center).map (fun c => c.into v (on e.po_Fr.o k))).sum
      = star ((e.setup env center).map (fun c => c.into u (on e.po_Bk.o j))).sum := by
  have hux : ∀ p i, i ∉ env.okeys p → u (on p i) = 0 := by
    intro p i hi
    rw [hu, if_neg]
    intro h
    injection h with h1 h2
    subst h1; subst h2
    exact hi hk
  have hvx : ∀ p i, i ∉ env.okeys p → v (on p i) = 0 := by
    intro p i hi
    rw [hv, if_neg]
    intro h
    injection h with h1 h2
    subst h1; subst h2
    exact hi hj
  show total _ _ _ = star (total _ _ _)
  rw [setup_out e hne (Or.inl rfl) u hn hux j, setup_out e hne (Or.inr rfl) v hn hvx k, list_star_sum, List.map_map,
    neg_sum hb]
  congr 1
  apply List.map_congr_left
  intro d _
  rw [Function.comp_apply, hus, hvs, hus, hvs, ← hN, hreal, hu, hv, neg_neg, hrk, hrj]
  have hD : Drives center k.q (-1) (-d) ↔ Drives center k.q (1 : R) d := by
    unfold Drives
    rw [hc]
    simp
  have hkj : ((e.po_Bk.i, k.at (aom_ckeyO k.q k.cls d)) = (e.po_Bk.i, j)) ↔
      ((e.po_Fr.i, j.at (aom_ckeyO j.q j.cls (-d))) = (e.po_Fr.i, k)) := by
    simp only [Prod.mk.injEq, true_and]
    rw [ckeyO_at]
    exact eq_comm
  by_cases he : (e.po_Fr.i, j.at (aom_ckeyO j.q j.cls (-d))) = (e.po_Fr.i, k)
  · have hq : j.q = k.q := by
      injection he with _ h
      exact (congrArg OKey.q h : _)
    rw [if_pos he, if_pos (hkj.2 he), hq]
    simp only [hD, true_and]
    by_cases h : Drives center k.q (1 : R) d
    · rw [if_pos h, if_pos h, Signal.star_div_, hNr, one_mul, one_mul]
    · rw [if_neg h, if_neg h, star_zero]
  · rw [if_neg he, if_neg (fun h => he (hkj.1 h))]
    simp

/-- **C135, conjugates.**  Raising fields stay the conjugates of lowering fields, where the root of the mean square is real. -/
theorem C135_conjugate (e : AomBasic P) (hne : e.po_Fr.o ≠ e.po_Bk.o) (he : env.Real) (hc : ∀ k, center (-k) = -center k)
    {x : P × Key O K → F} (hx : ∀ p k, k ∉ env.okeys p → x (on p k) = 0)
    (hN : pknorm_func env (star (x (sn e.MS 0))) = star (pknorm_func env (x (sn e.MS 0)))) (p : Port P) (hp : p = e.po_Fr ∨ p = e.po_Bk)
    (j : OKey O K) :
    ((e.setup env center).map (fun c => c.into (omirror x) (on p.o j.conj))).sum
      = star ((e.setup env center).map (fun c => c.into x (on p.o j))).sum := by
  have hmx : ∀ p k, k ∉ env.okeys p → omirror x (on p k) = 0 := by
    intro p k hk
    show star (x (on p k.conj)) = 0
    rw [hx p k.conj (fun h => hk (by have := (he.okeys p).2 _ h; rwa [show ({ k.conj with q := k.conj.q.conj } : OKey O K) = k from k.conj_conj] at this)),
      star_zero]
  obtain ⟨port, direction, hdir⟩ : ∃ (port : Port P) (direction : R),
      (port, p, direction) = (e.po_Fr, e.po_Bk, 1) ∨ (port, p, direction) = (e.po_Bk, e.po_Fr, -1) := by
    rcases hp with rfl | rfl
    · exact ⟨e.po_Bk, -1, Or.inr rfl⟩
    · exact ⟨e.po_Fr, 1, Or.inl rfl⟩
  show total _ _ _ = star (total _ _ _)
  rw [setup_out e hne hdir x (fun p => (he.okeys p).1) hx j, setup_out e hne hdir (omirror x) (fun p => (he.okeys p).1) hmx j.conj,
    list_star_sum, List.map_map, neg_sum (he.skeys e.Drv)]
  congr 1
  apply List.map_congr_left
  intro d _
  have hms : omirror x (sn e.MS 0) = star (x (sn e.MS 0)) := by
    have := omirror_sn x e.MS 0
    rwa [neg_zero] at this
  have hD : Drives center j.conj.q direction (-d) ↔ Drives center j.q direction d := by
    unfold Drives
    rw [hc]
    show 0 < aom_neg j.q.conj * _ * _ ↔ _
    cases j.q <;> simp [aom_neg, Quantum.conj]
  have hcl : aom_ckeyO j.conj.q j.conj.cls (- -d) = aom_ckeyO j.q j.cls (-d) := by
    show aom_ckeyO j.q.conj j.cls _ = _
    cases j.q <;> simp [aom_ckeyO, Quantum.conj, sub_eq_add_neg]
  rw [Function.comp_apply, hms, hN, omirror_sn, hcl, at_conj, omirror_on]
  simp only [hD]
  by_cases h : env.reject j.cls = false ∧ Drives center j.q direction d
  · rw [if_pos h, if_pos (by exact h), Signal.star_div_, star_mul']
  · rw [if_neg h, if_neg (by exact h), star_zero]

/-- **C135, idle (refuted).**  Without a drive one would expect the light to pass undiffracted, or at least to be accounted for.  It is
lost: whatever comes to a modulator without drive, nothing leaves it. -/
theorem C135_idle_refuted (e : AomBasic P) (hne : e.po_Fr.o ≠ e.po_Bk.o) (x : P × Key O K → F)
    (hn : ∀ p, (env.okeys p).Nodup) (hx : ∀ p k, k ∉ env.okeys p → x (on p k) = 0) (hd : ∀ d, x (sn e.Drv d) = 0)
    (p : Port P) (hp : p = e.po_Fr ∨ p = e.po_Bk) (j : OKey O K) :
    ((e.setup env center).map (fun c => c.into x (on p.o j))).sum = 0 := by
  obtain ⟨port, direction, hdir⟩ : ∃ (port : Port P) (direction : R),
      (port, p, direction) = (e.po_Fr, e.po_Bk, 1) ∨ (port, p, direction) = (e.po_Bk, e.po_Fr, -1) := by
    rcases hp with rfl | rfl
    · exact ⟨e.po_Bk, -1, Or.inr rfl⟩
    · exact ⟨e.po_Fr, 1, Or.inl rfl⟩
  show total _ _ _ = 0
  rw [setup_out e hne hdir x hn hx j]
  simp [hd]

/-! ## Examples -/

/-- The ports of a modulator. -/
def exAom : AomBasic ℕ := ⟨⟨0, 1⟩, ⟨2, 3⟩, 4, 5⟩

/-- Light at 9, 10 and 11, and a drive at ±1. -/
noncomputable def aenv : OEnv ℕ Unit ℤ ℂ :=
  demo (fun p => if p = 0 ∨ p = 2 then keysAt [9, 10, 11] else []) (fun p => if p = 4 then [1, -1] else []) (fun f => decide (f ∉ [9, 10, 11]))

/-- Light of the given amplitudes at 10 at the front and at 11 at the back, the drive, and its mean square. -/
noncomputable def afield (a b : ℂ) : ℕ × Key Unit ℤ → ℂ
  | (0, .opt k) => if k = ⟨(), 10, .S, .lower⟩ then a else 0
  | (2, .opt k) => if k = ⟨(), 11, .S, .lower⟩ then b else 0
  | (4, .sig f) => if f = 1 ∨ f = -1 then 2 else 0
  | (5, .sig f) => if f = 0 then 2 else 0
  | _ => 0

def asenv : Signal.SEnv ℕ ℤ ℤ ℂ where
  keys := fun p => if p = 4 then [1, -1] else []
  reject := fun _ => false
  freq := id
  center := id
  cast := fun r => r
  i := 0
  exp := id

theorem aenv_real : aenv.Real := by
  refine demo_real _ _ _ (fun p => ?_) (fun p => ?_)
  · show (if p = 0 ∨ p = 2 then keysAt [9, 10, 11] else []).Nodup ∧ ∀ k ∈ (if p = 0 ∨ p = 2 then keysAt [9, 10, 11] else []), _
    split_ifs
    · exact ⟨by decide, fun k hk => mem_keysAt.2 (show k.cls ∈ _ from mem_keysAt.1 hk)⟩
    · exact ⟨List.nodup_nil, fun k hk => absurd hk List.not_mem_nil⟩
  · show Balanced (if p = 4 then [1, -1] else [])
    split_ifs
    · exact ⟨by decide, by decide⟩
    · exact ⟨List.nodup_nil, fun k hk => absurd hk List.not_mem_nil⟩

theorem afield_off (p : ℕ) (k : OKey Unit ℤ) (a b : ℂ) (h : k ∉ aenv.okeys p) : afield a b (on p k) = 0 := by
  have h' : k ∉ (if p = 0 ∨ p = 2 then keysAt [9, 10, 11] else []) := h
  match p with
  | 0 =>
    refine if_neg ?_
    rintro rfl
    exact h' (mem_keysAt.2 (by decide))
  | 1 => rfl
  | 2 =>
    refine if_neg ?_
    rintro rfl
    exact h' (mem_keysAt.2 (by decide))
  | 3 => rfl
  | 4 => rfl
  | 5 => rfl
  | n + 6 => rfl

example : exAom.po_Fr.o ≠ exAom.po_Bk.o ∧ (∀ p, (aenv.okeys p).Nodup) ∧ (∀ p k, k ∉ aenv.okeys p → afield 3 0 (on p k) = 0) ∧
    (∀ k : ℤ, id (-k) = -id k) ∧ Balanced (aenv.skeys exAom.Drv) ∧ (∀ d ∈ aenv.skeys exAom.Drv, id d ≠ 0) ∧
    (∀ d, afield 3 0 (sn exAom.Drv (-d)) = star (afield 3 0 (sn exAom.Drv d))) ∧
    asenv.keys exAom.Drv = aenv.skeys exAom.Drv ∧ (∀ d ∈ aenv.skeys exAom.Drv, asenv.reject (-d) = false) ∧ (∀ k : ℤ, -k = k → k = 0) ∧
    afield 3 0 (sn exAom.MS 0) = total (Signal.mean_square_setup asenv exAom.Drv exAom.MS) (fun t => afield 3 0 (t.1, .sig t.2)) (exAom.MS, 0) ∧
    afield 3 0 (sn exAom.MS 0) ≠ 0 ∧
    aenv.sqrt (2 * afield 3 0 (sn exAom.MS 0)) * star (aenv.sqrt (2 * afield 3 0 (sn exAom.MS 0))) = 2 * afield 3 0 (sn exAom.MS 0) ∧
    (∀ k', k' ≠ ⟨(), 10, .S, .lower⟩ → afield 3 0 (on exAom.po_Fr.i k') = 0) ∧ (keysAt [9, 10, 11]).Nodup ∧
    (∀ f, aenv.reject f = false → (⟨(), 10, .S, .lower⟩ : OKey Unit ℤ).at f ∈ keysAt [9, 10, 11]) ∧
    (∀ d ∈ aenv.skeys exAom.Drv, aenv.reject ((⟨(), 10, .S, .lower⟩ : OKey Unit ℤ).cls + d) = false) ∧
    pknorm_func aenv (star (afield 3 0 (sn exAom.MS 0))) = star (pknorm_func aenv (afield 3 0 (sn exAom.MS 0))) ∧
    afield 3 0 (on exAom.po_Fr.i ⟨(), 10, .S, .lower⟩) = 3 := by
  have hd : ∀ d, d ∈ aenv.skeys exAom.Drv ↔ d = 1 ∨ d = -1 := fun d => by
    show d ∈ [1, -1] ↔ _
    simp
  have h2 : afield 3 0 (sn exAom.MS 0) = 2 := rfl
  have hs : csqrt (2 * 2) * csqrt (2 * 2) = (2 * 2 : ℂ) := by
    have := csqrt_sq (a := 2 * 2) (by norm_num)
    push_cast at this
    exact this
  refine ⟨by decide, fun p => (aenv_real.okeys p).1, fun p k => afield_off p k 3 0, fun _ => rfl, aenv_real.skeys _, ?_, ?_, rfl,
    fun _ _ => rfl, fun k hk => by omega, ?_, ?_, ?_, fun k' hk => if_neg hk, by decide, ?_, ?_, ?_, by simp [afield, on, exAom]⟩
  · intro d h
    rcases (hd d).1 h with rfl | rfl <;> decide
  · intro d
    show (if -d = 1 ∨ -d = -1 then (2 : ℂ) else 0) = star (if d = 1 ∨ d = -1 then (2 : ℂ) else 0)
    have : (-d = 1 ∨ -d = -1) ↔ (d = 1 ∨ d = -1) := by omega
    simp only [this]
    split_ifs
    · exact (Complex.conj_ofReal 2).symm
    · exact star_zero _ |>.symm
  · rw [h2]
    simp [Signal.mean_square_setup, Signal.mean_square_loop, asenv, exAom, total, Coupling.into, Coupling.target, Coupling.term, afield]
    try norm_num
  · rw [h2]; norm_num
  · rw [h2]
    show csqrt (2 * 2) * star (csqrt (2 * 2)) = _
    rw [csqrt_real, hs]
  · intro f hf
    have h : ¬ f ∉ [9, 10, 11] := of_decide_eq_false hf
    exact mem_keysAt.2 (show f ∈ [9, 10, 11] from not_not.1 h)
  · intro d h
    rcases (hd d).1 h with rfl | rfl <;> decide
  · rw [h2]
    show (if star (2 : ℂ) ≠ 0 then csqrt (2 * star 2) else _) = star (if (2 : ℂ) ≠ 0 then csqrt (2 * 2) else _)
    rw [if_pos (by simp), if_pos two_ne_zero, csqrt_real]
    congr 2
    exact Complex.conj_ofReal 2

example : ∃ x : ℕ × Key Unit ℤ → ℂ, (∀ d, x (sn exAom.Drv (-d)) = star (x (sn exAom.Drv d))) ∧
    star (pknorm_func aenv (x (sn exAom.MS 0))) = pknorm_func aenv (x (sn exAom.MS 0)) ∧
    (⟨(), 10, .S, .lower⟩ : OKey Unit ℤ) ∈ aenv.okeys exAom.po_Fr.i ∧ (⟨(), 11, .S, .lower⟩ : OKey Unit ℤ) ∈ aenv.okeys exAom.po_Bk.i ∧
    aenv.reject 10 = false ∧ aenv.reject 11 = false ∧
    (∀ p i, afield 1 0 (on p i) = if (p, i) = (exAom.po_Fr.i, ⟨(), 10, .S, .lower⟩) then 1 else 0) ∧
    (∀ p i, afield 0 1 (on p i) = if (p, i) = (exAom.po_Bk.i, ⟨(), 11, .S, .lower⟩) then 1 else 0) ∧
    (∀ p f, afield 1 0 (sn p f) = x (sn p f)) ∧ (∀ p f, afield 0 1 (sn p f) = x (sn p f)) := by
  refine ⟨afield 1 0, ?_, ?_, mem_keysAt.2 (by decide), mem_keysAt.2 (by decide), by decide, by decide, ?_, ?_, fun _ _ => rfl, ?_⟩
  · intro d
    show (if -d = 1 ∨ -d = -1 then (2 : ℂ) else 0) = star (if d = 1 ∨ d = -1 then (2 : ℂ) else 0)
    have : (-d = 1 ∨ -d = -1) ↔ (d = 1 ∨ d = -1) := by omega
    simp only [this]
    split_ifs
    · exact (Complex.conj_ofReal 2).symm
    · exact star_zero _ |>.symm
  · show star (if (2 : ℂ) ≠ 0 then csqrt (2 * 2) else _) = (if (2 : ℂ) ≠ 0 then csqrt (2 * 2) else _)
    rw [if_pos two_ne_zero, csqrt_real]
  · intro p i
    match p with
    | 0 => simp [afield, on, exAom]
    | 1 => simp [afield, on, exAom]
    | 2 => simp [afield, on, exAom]
    | 3 => simp [afield, on, exAom]
    | n + 4 => simp [afield, on, exAom]
  · intro p i
    match p with
    | 0 => simp [afield, on, exAom]
    | 1 => simp [afield, on, exAom]
    | 2 => simp [afield, on, exAom]
    | 3 => simp [afield, on, exAom]
    | n + 4 => simp [afield, on, exAom]
  · intro p f
    match p with
    | 0 => rfl
    | 1 => rfl
    | 2 => rfl
    | 3 => rfl
    | 4 => rfl
    | 5 => rfl
    | n + 6 => rfl

end Optics
