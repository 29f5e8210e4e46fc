import Verif.Optics.Photodiode

/-!
# Homodyne detectors with a hidden oscillator (C136): model and sums

Source: `/repo/phasor/optics/hidden_variable_homodyne.py`.
-/

set_option linter.unusedSectionVars false

namespace Optics
open Py Inject Circuit
open Signal (Balanced wave)

variable {P O K F : Type} [DecidableEq P] [DecidableEq O] [DecidableEq K] [AddCommGroup K] [Field F] [StarRing F]
  [DecidableEq F]

/-! ## model -/

/-- A `HiddenVariableHomodynePD`, l.21-78; `quanta` has the ports `rtQuantumI.o` and `rtQuantumQ.o` when `include_quanta`,
`relative` the ports `RinI.o`, `RadQ.o` and `PWR_in.WpdDC.o` when `include_relative`; `PWR_tot` is the port `PWR_tot.WpdDC.o`. -/
structure Homodyne (P F : Type) where
  po_Fr : Port P
  po_Bk : Port P
  source_port : P
  phase_deg : F
  rtWpdI : P
  rtWpdQ : P
  rtWpdCmn : P
  PWR_tot : P
  quanta : Option (P × P)
  relative : Option (P × P × P)

section
variable (env : OEnv P O K F) (abs : F → F) (h_Js : F)

/-- `Stdcplg` and `StdcplgC`, l.179-193. -/
def hd_std (phase_deg : F) : F × F :=
  if phase_deg = 0 then (1, 1)
  else if abs (phase_deg + 90) = 180 then (env.i, -env.i)
  else if abs phase_deg = 180 then (-1, -1)
  else if abs (phase_deg - 90) = 180 then (-env.i, env.i)
  else (env.exp (phase_deg / 360 * env.i2pi), env.exp (-phase_deg / 360 * env.i2pi))

/-- The triplets of one pair of signal keys that l.213-291 and l.533-611 share; `mk` makes the coupling out of the two nodes it
multiplies, the node it goes to and its factor. -/
def hd_pair (mk : P × Key O K → P × Key O K → P × Key O K → F → Coupling P (Key O K) F) (pfrom src out : P) (cL cR : F)
    (k : OKey O K) (lk : K) : List (Coupling P (Key O K) F) :=
  match k.q with
  | .lower =>
    (match sideband env k (k.cls + lk) with
      | none => []
      | some kto => [mk (on pfrom kto) (on src k.conj) (sn out lk) cL]) ++
    (if -lk ≠ lk then
      (match sideband env k (k.cls + -lk) with
        | none => []
        | some kto => [mk (on pfrom kto) (on src k.conj) (sn out (-lk)) cL])
      else [])
  | .raise =>
    (match sideband env k (k.cls + lk) with
      | none => []
      | some kto => [mk (on pfrom kto) (on src k.conj) (sn out (-lk)) cR]) ++
    (if -lk ≠ lk then
      (match sideband env k (k.cls + -lk) with
        | none => []
        | some kto => [mk (on pfrom kto) (on src k.conj) (sn out lk) cR])
      else [])

/-- The arguments of `insert_coupling`, l.195-201. -/
structure Channel (P F : Type) where
  out : P
  Stdcplg : F
  StdcplgC : F
  norm_ports : List P
  as_quanta : Bool
  norms_func : List F → F

/-- `cplg_adjust`, l.235-239; `env.sqrt` is the power to the half. -/
def Channel.adjust (c : Channel P F) (o : O) : F :=
  if c.as_quanta then 1 / env.sqrt (h_Js * env.c_m_s * env.iwavelen_m o / 2) else 1

/-- `insert_coupling`, l.195-291; the first lines are the loop of the modulators (`pair_loop`). -/
def insert_coupling (e : Homodyne P F) (k : OKey O K) (c : Channel P F) : Except Err (List (Coupling P (Key O K) F)) :=
  pair_loop (env.skeys c.out) false (hd_pair env
    (fun a b t g => .tripletNorms a b t (c.norm_ports.map (fun p => sn p 0)) g c.norms_func) e.po_Fr.i e.source_port c.out
    (c.Stdcplg / 2 * c.adjust env h_Js k.opt) (c.StdcplgC / 2 * c.adjust env h_Js k.opt) k) [] (env.skeys c.out)

/-- The default of `norms_func`, l.200. -/
def norm_one : List F → F
  | [v] => env.sqrt (abs v + 1 / 10 ^ 20)
  | _ => 0

/-- `norms_func` of the relative outputs, l.329 and l.337. -/
def norm_two : List F → F
  | [u, v] => env.sqrt (abs (v * u) + 1 / 10 ^ 20)
  | _ => 0

/-- The calls of `insert_coupling`, l.293-338. -/
def Homodyne.channels (e : Homodyne P F) : List (Channel P F) :=
  let std := hd_std env abs e.phase_deg
  [⟨e.rtWpdI, std.1, std.2, [e.PWR_tot], false, norm_one env abs⟩,
    ⟨e.rtWpdQ, env.i * std.1, -env.i * std.2, [e.PWR_tot], false, norm_one env abs⟩] ++
  (match e.quanta with
    | none => []
    | some (qI, qQ) =>
      [⟨qI, std.1, std.2, [e.PWR_tot], true, norm_one env abs⟩,
        ⟨qQ, env.i * std.1, -env.i * std.2, [e.PWR_tot], true, norm_one env abs⟩]) ++
  (match e.relative with
    | none => []
    | some (RinI, RadQ, PWR_in) =>
      [⟨RinI, std.1, std.2, [e.PWR_tot, PWR_in], false, norm_two env abs⟩,
        ⟨RadQ, env.i * std.1, -env.i * std.2, [e.PWR_tot, PWR_in], false, norm_two env abs⟩])

/-- `modulations_fill_2optical_2classical_hdyne`, l.517-611, with the arguments of its calls, l.347-390. -/
def Homodyne.common (e : Homodyne P F) (pfrom : P) (k : OKey O K) : Except Err (List (Coupling P (Key O K) F)) :=
  pair_loop (env.skeys e.rtWpdCmn) false (hd_pair env (fun a b t g => .tripletNorm a b t (sn e.PWR_tot 0) g env.sqrt)
    pfrom pfrom e.rtWpdCmn (1 / 2) (1 / 2) k) [] (env.skeys e.rtWpdCmn)

/-- `system_setup_coupling`, l.176-390.  The order of the couplings is not that of the code, which inserts the couplings of the common
output between those of the passage; nothing depends on it. -/
def Homodyne.setup (e : Homodyne P F) : Except Err (List (Coupling P (Key O K) F)) :=
  blocks [
    blocks ((env.okeys e.source_port).map (fun k => blocks ((e.channels env abs).map (insert_coupling env h_Js e k)))),
    .ok ((env.okeys e.po_Bk.i).map (fun k => .edge (on e.po_Bk.i k) (on e.po_Fr.o k) 1)),
    .ok ((env.okeys e.po_Fr.i).map (fun k => .edge (on e.po_Fr.i k) (on e.po_Bk.o k) 1)),
    blocks ((env.okeys e.po_Fr.i).map (e.common env e.po_Fr.i)),
    if e.source_port ≠ e.po_Fr.i then blocks ((env.okeys e.source_port).map (e.common env e.source_port)) else .ok []]

/-- `TotalDCPowerPD.system_setup_coupling`, l.438-460; `QuantaDC` when `include_quanta`. -/
def total_dc_setup (port WpdDC : P) (QuantaDC : Option P) : List (Coupling P (Key O K) F) :=
  (env.okeys port).flatMap (fun k =>
    [.multEdge (on port k) (sn WpdDC 0) (1 / 2) [on port k.conj]] ++
    (match QuantaDC with
      | none => []
      | some q => [.multEdge (on port k) (sn q 0) (1 / 2 / (h_Js * env.c_m_s * env.iwavelen_m k.opt / 2)) [on port k.conj]]))

end

/-! ## one pair of keys -/

variable (env : OEnv P O K F)

/-- The product of the oscillator at `k` conjugated and the sideband moved by `lk`, at the signal key `lk`. -/
def hdTerm (pfrom src out : P) (cL cR N : F) (k : OKey O K) (x : P × Key O K → F) (t : P × Key O K) (lk : K) : F :=
  if env.reject (k.cls + shift k.q lk) = false ∧ sn out lk = t then
    k.q.pick cL cR * x (on pfrom (k.at (k.cls + shift k.q lk))) * x (on src k.conj) / N
  else 0

/-- A coupling of two nodes over a norm. -/
def Products (mk : P × Key O K → P × Key O K → P × Key O K → F → Coupling P (Key O K) F) (x : P × Key O K → F) (N : F) : Prop :=
  ∀ a b t g t', (mk a b t g).into x t' = if t = t' then g * x a * x b / N else 0

theorem hd_pair_total {mk : P × Key O K → P × Key O K → P × Key O K → F → Coupling P (Key O K) F} {x : P × Key O K → F} {N : F}
    (hm : Products mk x N) (pfrom src out : P) (cL cR : F) (k : OKey O K) (t : P × Key O K) (lk : K) :
    total (hd_pair env mk pfrom src out cL cR k lk) x t =
      if -lk = lk then hdTerm env pfrom src out cL cR N k x t lk
      else hdTerm env pfrom src out cL cR N k x t lk + hdTerm env pfrom src out cL cR N k x t (-lk) := by
  unfold hd_pair hdTerm sideband shift Quantum.pick
  cases k.q with
  | lower =>
    dsimp only
    by_cases hl : -lk = lk
    · rw [if_neg (not_not.2 hl), if_pos hl, List.append_nil]
      by_cases h : env.reject (k.cls + lk) = true
      · simp [h, total_nil]
      · rw [if_neg h]
        dsimp only
        rw [total_single, hm]
        simp [h]
    · rw [if_pos hl, if_neg hl, total_append]
      congr 1
      · by_cases h : env.reject (k.cls + lk) = true
        · simp [h, total_nil]
        · rw [if_neg h]
          dsimp only
          rw [total_single, hm]
          simp [h]
      · by_cases h : env.reject (k.cls + -lk) = true
        · simp [h, total_nil]
        · rw [if_neg h]
          dsimp only
          rw [total_single, hm]
          simp [h]
  | raise =>
    dsimp only
    by_cases hl : -lk = lk
    · rw [if_neg (not_not.2 hl), if_pos hl, List.append_nil, hl]
      by_cases h : env.reject (k.cls + lk) = true
      · simp [h, total_nil]
      · rw [if_neg h]
        dsimp only
        rw [total_single, hm]
        simp [h]
    · rw [if_pos hl, if_neg hl, total_append, add_comm, neg_neg]
      congr 1
      · by_cases h : env.reject (k.cls + -lk) = true
        · simp [h, total_nil]
        · rw [if_neg h]
          dsimp only
          rw [total_single, hm]
          simp [h]
      · by_cases h : env.reject (k.cls + lk) = true
        · simp [h, total_nil]
        · rw [if_neg h]
          dsimp only
          rw [total_single, hm]
          simp [h]

theorem hd_loop_total {mk : P × Key O K → P × Key O K → P × Key O K → F → Coupling P (Key O K) F} {x : P × Key O K → F} {N : F}
    (hm : Products mk x N) {pfrom src out : P} {cL cR : F} {k : OKey O K} (hb : Balanced (env.skeys out))
    {cs : List (Coupling P (Key O K) F)}
    (h : pair_loop (env.skeys out) false (hd_pair env mk pfrom src out cL cR k) [] (env.skeys out) = .ok cs) (t : P × Key O K) :
    total cs x t = ((env.skeys out).map (hdTerm env pfrom src out cL cR N k x t)).sum := by
  rw [pair_loop_balanced (T := fun c => total c x t) (g := hdTerm env pfrom src out cL cR N k x t) hb (total_nil x t)
    (fun a b => total_append a b x t) (fun lk hl => by rw [hd_pair_total env hm, if_neg hl])
    (fun lk hl _ => by rw [hd_pair_total env hm, if_pos hl]) h]
  simp

theorem hd_loop_at {mk : P × Key O K → P × Key O K → P × Key O K → F → Coupling P (Key O K) F} {x : P × Key O K → F} {N : F}
    (hm : Products mk x N) {pfrom src out : P} {cL cR : F} {k : OKey O K} (hb : Balanced (env.skeys out))
    {cs : List (Coupling P (Key O K) F)}
    (h : pair_loop (env.skeys out) false (hd_pair env mk pfrom src out cL cR k) [] (env.skeys out) = .ok cs) {δ : K}
    (hδ : δ ∈ env.skeys out) : total cs x (sn out δ) = hdTerm env pfrom src out cL cR N k x (sn out δ) δ := by
  rw [hd_loop_total env hm hb h, ← List.sum_toFinset _ hb.1, Finset.sum_eq_single δ]
  · intro l _ hl
    unfold hdTerm
    rw [if_neg]
    rintro ⟨_, h⟩
    injection h with _ h
    injection h with h
    exact hl h
  · exact fun h => absurd (List.mem_toFinset.2 hδ) h

theorem hd_loop_off {mk : P × Key O K → P × Key O K → P × Key O K → F → Coupling P (Key O K) F} {x : P × Key O K → F} {N : F}
    (hm : Products mk x N) {pfrom src out : P} {cL cR : F} {k : OKey O K} (hb : Balanced (env.skeys out))
    {cs : List (Coupling P (Key O K) F)}
    (h : pair_loop (env.skeys out) false (hd_pair env mk pfrom src out cL cR k) [] (env.skeys out) = .ok cs) {t : P × Key O K}
    (ht : ∀ f, sn out f ≠ t) : total cs x t = 0 := by
  rw [hd_loop_total env hm hb h]
  apply List.sum_eq_zero
  intro a ha
  obtain ⟨l, _, rfl⟩ := List.mem_map.1 ha
  unfold hdTerm
  exact if_neg (fun h => ht l h.2)

/-! ## all keys -/

/-- The products of the lowering fields `y` and the raising fields `z` at the frequency `δ`, weighted by carrier. -/
def cross (w : O → F) (as : List (OKey O K)) (y : OKey O K → F) (bs : List (OKey O K)) (z : OKey O K → F) (δ : K) : F :=
  ∑ a ∈ as.toFinset, ∑ b ∈ bs.toFinset, if Beat δ a b then w a.opt * (y a * z b) else 0

theorem hd_cross {ks js : List (OKey O K)} (hn : ks.Nodup) (hconj : ∀ k ∈ ks, k.conj ∈ ks)
    (hr : ∀ k ∈ js, env.reject k.cls = false) (w : O → F) (pfrom src out : P) (x : P × Key O K → F)
    (hx : ∀ k, k ∉ js → x (on pfrom k) = 0) (δ : K) (cL cR N : F) :
    (ks.map (fun k => hdTerm env pfrom src out (cL * w k.opt) (cR * w k.opt) N k x (sn out δ) δ)).sum =
      (cL * cross w js (fun k => x (on pfrom k)) ks (fun k => x (on src k)) δ
        + cR * cross w ks (fun k => x (on src k)) js (fun k => x (on pfrom k)) δ) / N := by
  classical
  set y : OKey O K → F := fun k => x (on pfrom k) with hy
  set z : OKey O K → F := fun k => x (on src k) with hz
  set c : Quantum → F := fun q => match q with | .lower => cL | .raise => cR with hc
  have hterm : ∀ k : OKey O K, hdTerm env pfrom src out (cL * w k.opt) (cR * w k.opt) N k x (sn out δ) δ =
      c k.q * w k.opt * (y (k.at (k.cls + shift k.q δ)) * z k.conj) / N := by
    intro k
    unfold hdTerm
    by_cases h : env.reject (k.cls + shift k.q δ) = false
    · rw [if_pos ⟨h, rfl⟩]
      cases k.q with
      | lower => simp only [Quantum.pick, hy, hz, hc]; ring
      | raise => simp only [Quantum.pick, hy, hz, hc]; ring
    · rw [if_neg (fun h' => h h'.1)]
      have : y (k.at (k.cls + shift k.q δ)) = 0 := by
        apply hx
        intro h'
        exact h (hr _ h')
      rw [this]
      ring
  have h1 : (ks.map (fun k => hdTerm env pfrom src out (cL * w k.opt) (cR * w k.opt) N k x (sn out δ) δ)).sum =
      ∑ k ∈ ks.toFinset, c k.q * w k.opt * (y (k.at (k.cls + shift k.q δ)) * z k.conj) / N := by
    rw [List.sum_toFinset _ hn]
    congr 1
    apply List.map_congr_left
    intro k _
    exact hterm k
  rw [h1]
  have hval : ∀ j : OKey O K, y j = ∑ a ∈ js.toFinset, if a = j then y a else 0 := by
    intro j
    by_cases hj : j ∈ js
    · rw [Finset.sum_ite_eq' js.toFinset j y, if_pos (List.mem_toFinset.2 hj)]
    · rw [Finset.sum_ite_eq' js.toFinset j y, if_neg (fun h => hj (List.mem_toFinset.1 h))]
      exact hx j hj
  have hsplit : ∑ k ∈ ks.toFinset, c k.q * w k.opt * (y (k.at (k.cls + shift k.q δ)) * z k.conj) / N =
      (∑ k ∈ ks.toFinset, (∑ a ∈ js.toFinset, cL / N * if Beat δ a k then w a.opt * (y a * z k) else 0)) +
      ∑ k ∈ ks.toFinset, (∑ b ∈ js.toFinset, cR / N * if Beat δ k b then w k.opt * (z k * y b) else 0) := by
    have hre : ∑ k ∈ ks.toFinset, c k.q * w k.opt * (y (k.at (k.cls + shift k.q δ)) * z k.conj) / N =
        ∑ k ∈ ks.toFinset, c k.conj.q * w k.opt / N * z k * y (k.conj.at (k.cls + shift k.conj.q δ)) := by
      refine Finset.sum_bij' (fun k _ => k.conj) (fun k _ => k.conj) ?_ ?_ ?_ ?_ ?_
      · intro k hk
        exact List.mem_toFinset.2 (hconj k (List.mem_toFinset.1 hk))
      · intro k hk
        exact List.mem_toFinset.2 (hconj k (List.mem_toFinset.1 hk))
      · intro k _; exact k.conj_conj
      · intro k _; exact k.conj_conj
      · intro k _
        rw [k.conj_conj]
        show _ = c k.q * w k.opt / N * z k.conj * y (k.at (k.cls + shift k.q δ))
        ring
    rw [hre, ← Finset.sum_add_distrib]
    apply Finset.sum_congr rfl
    intro k _
    rw [hval (k.conj.at (k.cls + shift k.conj.q δ)), Finset.mul_sum, ← Finset.sum_add_distrib]
    apply Finset.sum_congr rfl
    intro a _
    obtain ⟨ao, ac, ap, aq⟩ := a
    obtain ⟨ko, kc, kp, kq⟩ := k
    have e1 : ∀ (u v : K), (v = u + -δ ↔ u = v + δ) := fun u v =>
      ⟨fun h => by rw [h]; abel, fun h => by rw [h]; abel⟩
    cases aq <;> cases kq <;>
      simp only [Beat, OKey.conj, OKey.at, Quantum.conj, shift, OKey.mk.injEq, reduceCtorEq, and_false, false_and,
        and_true, true_and, if_false, mul_zero, add_zero, zero_add, hc]
    · have : (ao = ko ∧ ac = kc + δ ∧ ap = kp) ↔ (ao = ko ∧ ap = kp ∧ ac = kc + δ) := by tauto
      simp only [this]
      split_ifs with h
      · rw [h.1]; ring
      · ring
    · have : (ao = ko ∧ ac = kc + -δ ∧ ap = kp) ↔ (ko = ao ∧ kp = ap ∧ kc = ac + δ) := by
        rw [e1, eq_comm (a := ao), eq_comm (a := ap)]; tauto
      simp only [this]
      split_ifs
      · ring
      · ring
  rw [hsplit, Finset.sum_comm, add_div]
  unfold cross
  congr 1
  · rw [mul_div_right_comm, Finset.mul_sum]
    apply Finset.sum_congr rfl
    intro a _
    rw [Finset.mul_sum]
  · rw [mul_div_right_comm, Finset.mul_sum]
    apply Finset.sum_congr rfl
    intro a _
    rw [Finset.mul_sum]

/-- The products at all times. -/
theorem cross_wave {e : K → F} (he : ∀ k l, e (k + l) = e k * e l) {as bs : List (OKey O K)} {ds : List K} (hd : ds.Nodup)
    (w : O → F) (y z : OKey O K → F)
    (hall : ∀ a ∈ as, ∀ b ∈ bs, a.opt = b.opt → a.pol = b.pol → a.cls - b.cls ∈ ds)
    {modes : List (O × Pol)} (hm : modes.Nodup) (hmodes : ∀ k ∈ as, (k.opt, k.pol) ∈ modes) :
    (ds.map (fun δ => cross w as y bs z δ * e δ)).sum
      = (modes.map (fun md => w md.1 * (light e as y md .lower * light e bs z md .raise))).sum := by
  classical
  have h3 : ∀ a ∈ as.toFinset, ∀ b ∈ bs.toFinset,
      (∑ δ ∈ ds.toFinset, (if Beat δ a b then w a.opt * (y a * z b) else 0) * e δ) =
      ∑ md ∈ modes.toFinset, w md.1 * ((if (a.opt, a.pol) = md ∧ a.q = .lower then y a * e a.cls else 0) *
        (if (b.opt, b.pol) = md ∧ b.q = .raise then z b * e (-b.cls) else 0)) := by
    intro a ha b hb
    have ha' := List.mem_toFinset.1 ha
    have hb' := List.mem_toFinset.1 hb
    by_cases hab : a.q = .lower ∧ b.q = .raise ∧ a.opt = b.opt ∧ a.pol = b.pol
    · obtain ⟨q1, q2, o1, p1⟩ := hab
      rw [Finset.sum_eq_single (a.cls - b.cls), Finset.sum_eq_single (a.opt, a.pol)]
      · rw [if_pos ⟨q1, q2, o1, p1, by abel⟩, if_pos ⟨rfl, q1⟩, if_pos ⟨by rw [o1, p1], q2⟩, sub_eq_add_neg, he]
        ring
      · intro md _ hne
        rw [if_neg (fun h => hne h.1.symm), zero_mul, mul_zero]
      · intro hne
        exact absurd (List.mem_toFinset.2 (hmodes a ha')) hne
      · intro δ _ hne
        rw [if_neg, zero_mul]
        rintro ⟨_, _, _, _, h⟩
        exact hne (by rw [h]; abel)
      · intro hne
        exact absurd (List.mem_toFinset.2 (hall a ha' b hb' o1 p1)) hne
    · rw [Finset.sum_eq_zero, Finset.sum_eq_zero]
      · intro md _
        by_cases h1 : (a.opt, a.pol) = md ∧ a.q = .lower
        · rw [if_neg (c := (b.opt, b.pol) = md ∧ b.q = .raise), mul_zero, mul_zero]
          rintro ⟨h4, h5⟩
          have h6 := h1.1.trans h4.symm
          injection h6 with h7 h8
          exact hab ⟨h1.2, h5, h7, h8⟩
        · rw [if_neg h1, zero_mul, mul_zero]
      · intro δ _
        rw [if_neg, zero_mul]
        rintro ⟨h1, h2, h3, h4, _⟩
        exact hab ⟨h1, h2, h3, h4⟩
  rw [← List.sum_toFinset _ hm, ← List.sum_toFinset _ hd]
  unfold cross light
  simp only [Finset.sum_mul]
  rw [Finset.sum_comm]
  simp only [Finset.mul_sum]
  rw [Finset.sum_comm (s := modes.toFinset)]
  apply Finset.sum_congr rfl
  intro a ha
  rw [Finset.sum_comm (s := modes.toFinset), Finset.sum_comm]
  apply Finset.sum_congr rfl
  intro b hb
  exact h3 a ha b hb

end Optics
