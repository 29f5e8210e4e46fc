import Verif.Optics.Modulator
import Verif.Optics.Demo

/-!
# Mirrors: the scattering of the light (C67)
-/

set_option linter.unusedSectionVars false

namespace Optics
open Py Inject Circuit
open Signal (Balanced wave)

variable {P O K F : Type} [DecidableEq P] [DecidableEq O] [DecidableEq K] [AddCommGroup K] [Field F] [StarRing F]
  [DecidableEq F]
variable (env : OEnv P O K F)

theorem get4 {α β : Type} [DecidableEq α] (a b c d j : α) (u v w z : β) :
    Dict.get? (Dict.ofList [(a, u), (b, v), (c, w), (d, z)]) j =
      if d = j then some z else if c = j then some w else if b = j then some v else if a = j then some u else none := by
  simp [Dict.ofList, Dict.update, Dict.get?_set]

theorem get_ok {α β : Type} [DecidableEq α] {d : Dict α β} {j : α} {v : β} (h : Dict.get? d j = some v) :
    Dict.get d j = .ok v := by
  unfold Dict.get
  rw [h]

/-- what a modulation sends to an optical node when the drive is silent -/
theorem fill_silent (m : Mod P F) (k : OKey O K) {pto : Port P} {inp : P} (hp : m.ptoOpt = some pto)
    (hi : m.in_port_classical = some inp) (hth : m.include_through_coupling = true) (hb : Balanced (env.skeys inp))
    (ho : ∀ p, m.out_port_classical = some p → Balanced (env.skeys p)) {cs : List (Coupling P (Key O K) F)}
    (h : m.fill env k = .ok cs) (x : P × Key O K → F) (hx : ∀ l, x (sn inp l) = 0) (q : P) (j : OKey O K) :
    total cs x (on q j) = if pto.o = q ∧ k = j then k.q.pick m.Stdcplg m.StdcplgC * x (on m.pfrom.i k) else 0 := by
  obtain ⟨a, c, ha, hc, htot⟩ := fill_total env m k h
  rw [htot, ba_opt env m k hc ho, add_zero, cl_total env m k hp hi hb ha, through_total m k hp hth]
  have h0 : ((env.skeys inp).map (fun lk => if -lk = lk then 0 else m.clTerm env k pto.o inp x (on q j) lk)).sum = 0 := by
    apply List.sum_eq_zero
    intro v hv
    obtain ⟨l, _, rfl⟩ := List.mem_map.1 hv
    unfold Mod.clTerm
    rw [hx, mul_zero, ite_self, ite_self]
  rw [h0, zero_add]
  unfold Mod.throughTerm
  have : (on pto.o k = on q j) ↔ (pto.o = q ∧ k = j) := by
    constructor
    · intro h
      injection h with h1 h2
      injection h2 with h2
      exact ⟨h1, h2⟩
    · rintro ⟨rfl, rfl⟩
      rfl
  simp only [this]

namespace Mirror
variable (m : Mirror P F)

/-- The factor by which `phase_rad` turns a reflection, when it is applied. -/
def turn (test : F) (q : Quantum) : F :=
  if test ≠ 0 then q.pick (env.exp (env.i * m.phase_rad)) (env.exp (-env.i * m.phase_rad)) else 1

theorem reflection_std (port pto : Port P) (g test s : F) (k : OKey O K) (q : Quantum) :
    q.pick (m.reflection env port pto g test s k).Stdcplg (m.reflection env port pto g test s k).StdcplgC =
      g * m.turn env test q := by
  unfold turn reflection Quantum.pick
  cases q <;> split_ifs <;> simp

/-- What one port sends to the optical nodes when the mirror does not move. -/
theorem at_port_total {p tp rp bp : Port P} {s tv rv bv : F} (hs : Dict.get? m.mod_sign_map p = some s)
    (ht : Dict.get? (m.tmap env) p = some (tp, tv)) (hr : Dict.get? (m.rmap env) p = some (rp, rv))
    (hbs : Dict.get? (m.rBSmap env) p = some (bp, bv)) (hl : Dict.get? (m.lmap env) p = none)
    (hT : m.T = 0 → tv = 0) (hR : m.R = 0 → rv = 0) (hB : m.R_backscatter = 0 → bv = 0)
    (hZ : Balanced (env.skeys m.Zd)) (hF : Balanced (env.skeys m.ZF)) (hn : (env.okeys p.i).Nodup)
    {cs : List (Coupling P (Key O K) F)} (h : m.at_port env p = .ok cs) (x : P × Key O K → F)
    (hx : ∀ l, x (sn m.Zd l) = 0) (hxk : ∀ k, k ∉ env.okeys p.i → x (on p.i k) = 0) (q : P) (j : OKey O K) :
    total cs x (on q j) = ((if tp.o = q then tv else 0) + (if rp.o = q then rv * m.turn env m.phase_rad j.q else 0) +
      (if bp.o = q then bv * m.turn env m.backscatter_phase_rad j.q else 0)) * x (on p.i j) := by
  set A : OKey O K → F := fun k => ((if tp.o = q then tv else 0) + (if rp.o = q then rv * m.turn env m.phase_rad k.q else 0) +
      (if bp.o = q then bv * m.turn env m.backscatter_phase_rad k.q else 0)) * x (on p.i k) with hA
  unfold at_port at h
  rw [get_ok hs] at h
  replace h : blocks ((env.okeys p.i).map (fun k =>
    blocks [m.transmit env p k, .ok (m.lose env p k), m.reflect env p s k, m.backscatter env p s k])) = .ok cs := h
  have hper : ∀ k ∈ env.okeys p.i, ∀ ds, blocks [m.transmit env p k, .ok (m.lose env p k), m.reflect env p s k,
      m.backscatter env p s k] = .ok ds → total ds x (on q j) = if k = j then A k else 0 := by
    intro k _ ds hd
    obtain ⟨c1, d1, h1, hd1, rfl⟩ := blocks_cons hd
    obtain ⟨c2, d2, h2, hd2, rfl⟩ := blocks_cons hd1
    obtain ⟨c3, d3, h3, hd3, rfl⟩ := blocks_cons hd2
    obtain ⟨c4, d4, h4, hd4, rfl⟩ := blocks_cons hd3
    obtain rfl := blocks_nil hd4
    have e1 : total c1 x (on q j) = if tp.o = q ∧ k = j then tv * x (on p.i k) else 0 := by
      unfold transmit at h1
      by_cases hT0 : m.T = 0
      · rw [if_neg (not_not.2 hT0)] at h1
        injection h1 with h1
        subst h1
        rw [hT hT0, zero_mul, ite_self, total_nil]
      · rw [if_pos hT0, get_ok ht] at h1
        replace h1 : Except.ok [Coupling.edge (on p.i k) (on tp.o k) tv] = Except.ok c1 := h1
        injection h1 with h1
        subst h1
        rw [total_single, into_edge]
        have : (on tp.o k = on q j) ↔ (tp.o = q ∧ k = j) := by
          constructor
          · intro h
            injection h with h1 h2
            injection h2 with h2
            exact ⟨h1, h2⟩
          · rintro ⟨rfl, rfl⟩
            rfl
        simp only [this]
    have e2 : total c2 x (on q j) = 0 := by
      injection h2 with h2
      subst h2
      unfold lose
      rw [hl]
      split_ifs <;> rfl
    have hin : ∀ (pto : Port P) (g test : F), (m.reflection env p pto g test s k).in_port_classical = some m.Zd :=
      fun _ _ _ => rfl
    have e3 : total c3 x (on q j) = if rp.o = q ∧ k = j then rv * m.turn env m.phase_rad k.q * x (on p.i k) else 0 := by
      unfold reflect at h3
      rw [get_ok hr] at h3
      replace h3 : (if m.R ≠ 0 then (m.reflection env p rp rv m.phase_rad s k).fill env k else .ok []) = .ok c3 := h3
      by_cases hR0 : m.R = 0
      · rw [if_neg (not_not.2 hR0)] at h3
        injection h3 with h3
        subst h3
        rw [hR hR0, zero_mul, zero_mul, ite_self, total_nil]
      · rw [if_pos hR0] at h3
        rw [fill_silent env _ k (pto := rp) rfl rfl rfl hZ (by rintro p ⟨⟩; exact hF) h3 x hx, reflection_std]
        rfl
    have e4 : total c4 x (on q j) =
        if bp.o = q ∧ k = j then bv * m.turn env m.backscatter_phase_rad k.q * x (on p.i k) else 0 := by
      unfold backscatter at h4
      by_cases hB0 : m.R_backscatter = 0
      · rw [if_neg (not_not.2 hB0)] at h4
        injection h4 with h4
        subst h4
        rw [hB hB0, zero_mul, zero_mul, ite_self, total_nil]
      · rw [if_pos hB0, get_ok hbs] at h4
        replace h4 : (m.reflection env p bp bv m.backscatter_phase_rad s k).fill env k = .ok c4 := h4
        rw [fill_silent env _ k (pto := bp) rfl rfl rfl hZ (by rintro p ⟨⟩; exact hF) h4 x hx, reflection_std]
        rfl
    rw [total_append, total_append, total_append, total_append, total_nil, e1, e2, e3, e4]
    by_cases hk : k = j
    · simp only [hk, and_true, if_true, hA]
      split_ifs <;> ring
    · simp only [hk, and_false, if_false]
      ring
  rw [blocks_map h hper, ← List.sum_toFinset _ hn]
  show _ = A j
  by_cases hj : j ∈ env.okeys p.i
  · rw [Finset.sum_ite_eq' (env.okeys p.i).toFinset j A, if_pos (List.mem_toFinset.2 hj)]
  · rw [Finset.sum_ite_eq' (env.okeys p.i).toFinset j A, if_neg (fun h => hj (List.mem_toFinset.1 h)), hA]
    dsimp only
    rw [hxk j hj, mul_zero]

/-- What the loss ports send to the optical nodes. -/
theorem loss_total {ls : List (Port P)} (hls : m.ports_optical_loss = ls) {tgt : Port P → Port P}
    (hget : ∀ p ∈ ls, Dict.get? (m.lmap env) p = some (tgt p, m.l env)) (hl : m.has_loss = false → m.l env = 0)
    (hn : ∀ p ∈ ls, (env.okeys p.i).Nodup) {cs : List (Coupling P (Key O K) F)} (h : m.loss_couplings env = .ok cs)
    (x : P × Key O K → F) (hxk : ∀ p ∈ ls, ∀ k, k ∉ env.okeys p.i → x (on p.i k) = 0) (q : P) (j : OKey O K) :
    total cs x (on q j) = (ls.map (fun p => if (tgt p).o = q then m.l env * x (on p.i j) else 0)).sum := by
  unfold loss_couplings at h
  rw [hls] at h
  by_cases hb : m.has_loss = true
  · rw [if_pos hb] at h
    apply blocks_map h
    intro p hp ds hds
    rw [hget p hp] at hds
    dsimp only at hds
    injection hds with hds
    subst hds
    rw [edges_total (hn p hp)]
    by_cases hj : j ∈ env.okeys p.i
    · simp only [hj, and_true]
    · simp only [hj, and_false, if_false, hxk p hp j hj, mul_zero, ite_self]
  · rw [if_neg hb] at h
    injection h with h
    subst h
    rw [hl (by simpa using hb), total_nil]
    simp

/-- The nodes of the mirror's ports are distinct, its key lists have no repetitions, the keys of its mechanical ports come in
pairs, and the square root of zero is zero. -/
structure Mounted : Prop where
  inj : Function.Injective (fun a => (m.port a).o)
  nodup : ∀ a, (env.okeys (m.port a).i).Nodup
  Zd : Balanced (env.skeys m.Zd)
  ZF : Balanced (env.skeys m.ZF)
  sqrt0 : env.sqrt 0 = 0

/-- The fields are zero outside of the lists of keys, and the mirror does not move. -/
structure Still (x : P × Key O K → F) : Prop extends Mounted env m where
  outside : ∀ a k, k ∉ env.okeys (m.port a).i → x ((m.port a).i, .opt k) = 0
  silent : ∀ l, x (m.Zd, .sig l) = 0

variable {m}

theorem Mounted.ne (h : m.Mounted env) {a b : MPort} (hab : a ≠ b) : m.port a ≠ m.port b :=
  fun h' => hab (h.inj (congrArg Port.o h'))

theorem Mounted.ne_o (h : m.Mounted env) {a b : MPort} (hab : a ≠ b) : (m.port a).o ≠ (m.port b).o :=
  fun h' => hab (h.inj h')

theorem Mounted.r0 (h : m.Mounted env) (h0 : m.R = 0) : m.r env = 0 := by
  unfold r
  rw [h0, h.sqrt0, neg_zero, ite_self]

theorem Mounted.b0 (h : m.Mounted env) (h0 : m.R_backscatter = 0) : m.rBS env = 0 := by
  unfold rBS
  rw [h0, h.sqrt0, neg_zero, ite_self]

theorem Mounted.t0 (h : m.Mounted env) (h0 : m.T = 0) : m.t env = 0 := by
  unfold t
  rw [h0, h.sqrt0]

theorem Mounted.l0 (h : m.Mounted env) (h0 : m.has_loss = false) : m.l env = 0 := by
  unfold has_loss at h0
  rw [Bool.or_eq_false_iff, decide_eq_false_iff_not, decide_eq_false_iff_not, not_not, not_not] at h0
  unfold l L
  rw [h0.1, h0.2, add_zero, h.sqrt0]

theorem get_mem {α β : Type} [DecidableEq α] (a b c d j : α) (u v w z : β) (hj : j = a ∨ j = b ∨ j = c ∨ j = d) :
    ∃ y, Dict.get (Dict.ofList [(a, u), (b, v), (c, w), (d, z)]) j = .ok y := by
  have : ∃ y, Dict.get? (Dict.ofList [(a, u), (b, v), (c, w), (d, z)]) j = some y := by
    rw [get4]
    rcases hj with rfl | rfl | rfl | rfl <;> split_ifs <;> first | exact ⟨_, rfl⟩ | exact absurd rfl ‹_›
  obtain ⟨y, hy⟩ := this
  exact ⟨y, get_ok hy⟩

/-- The couplings of a mirror are always found when the keys of its mechanical ports come in pairs. -/
theorem setup_ok (hZ : ∀ k ∈ env.skeys m.Zd, -k ∈ env.skeys m.Zd) (hF : ∀ k ∈ env.skeys m.ZF, -k ∈ env.skeys m.ZF) :
    ∃ cs, m.setup env = .ok cs := by
  have hport : ∀ p ∈ m.ports_optical, p = m.FrA ∨ p = m.BkA ∨ p = m.FrB ∨ p = m.BkB := by
    intro p hp
    unfold ports_optical at hp
    split_ifs at hp <;> simp only [List.mem_cons, List.not_mem_nil, or_false] at hp <;> tauto
  have hfill : ∀ (p q : Port P) (g te s : F) (k : OKey O K), ∃ cs, (m.reflection env p q g te s k).fill env k = .ok cs :=
    fun p q g te s k => fill_ok env _ k (by rintro _ ⟨⟩; exact hZ) (by rintro _ ⟨⟩; exact hF)
  apply blocks_ok
  intro b hb
  rw [List.mem_append, List.mem_map, List.mem_singleton] at hb
  rcases hb with ⟨p, hp, rfl⟩ | rfl
  · have hp' := hport p hp
    unfold at_port
    obtain ⟨s, hs⟩ := get_mem m.FrA m.BkA m.FrB m.BkB p (1 : F) (-1) 1 (-1) hp'
    have hs' : Dict.get m.mod_sign_map p = .ok s := hs
    rw [hs']
    refine blocks_ok ?_
    intro b hb
    obtain ⟨k, _, rfl⟩ := List.mem_map.1 hb
    refine blocks_ok ?_
    intro b hb
    simp only [List.mem_cons, List.not_mem_nil, or_false] at hb
    rcases hb with rfl | rfl | rfl | rfl
    · unfold transmit
      split_ifs
      · obtain ⟨v, hv⟩ := get_mem m.FrA m.BkA m.FrB m.BkB p (m.BkA, m.t env) (m.FrA, m.t env) (m.BkB, m.t env)
          (m.FrB, m.t env) hp'
        have hv' : Dict.get (m.tmap env) p = .ok v := hv
        rw [hv']
        exact ⟨_, rfl⟩
      · exact ⟨_, rfl⟩
    · exact ⟨_, rfl⟩
    · unfold reflect
      obtain ⟨v, hv⟩ := get_mem m.FrA m.BkA m.FrB m.BkB p (m.FrB, m.r env) (m.BkB, -m.r env) (m.FrA, m.r env)
          (m.BkA, -m.r env) hp'
      have hv' : Dict.get (m.rmap env) p = .ok v := hv
      rw [hv']
      show ∃ e, (if m.R ≠ 0 then _ else _) = _
      split_ifs
      · exact hfill ..
      · exact ⟨_, rfl⟩
    · unfold backscatter
      split_ifs
      · obtain ⟨v, hv⟩ := get_mem m.FrA m.FrB m.BkA m.BkB p (m.FrA, m.rBS env) (m.FrB, -m.rBS env) (m.BkA, -m.rBS env)
          (m.BkB, m.rBS env) (by tauto)
        have hv' : Dict.get (m.rBSmap env) p = .ok v := hv
        rw [hv']
        exact hfill ..
      · exact ⟨_, rfl⟩
  · unfold loss_couplings
    split_ifs
    · refine blocks_ok ?_
      intro b hb
      obtain ⟨p, hp, rfl⟩ := List.mem_map.1 hb
      have hp' : p = m.LFrA ∨ p = m.LBkA ∨ p = m.LFrB ∨ p = m.LBkB := by
        unfold ports_optical_loss at hp
        split_ifs at hp <;> simp only [List.mem_cons, List.not_mem_nil, or_false] at hp <;> tauto
      obtain ⟨v, hv⟩ := get_mem m.LFrA m.LBkA m.LFrB m.LBkB p (m.FrA, m.l env) (m.BkA, m.l env) (m.FrB, m.l env)
          (m.BkB, m.l env) hp'
      have hv' : Dict.get (m.lmap env) p = .ok v := hv
      unfold Dict.get at hv'
      split at hv'
      · rename_i w hw
        rw [hw]
        exact ⟨_, rfl⟩
      · cases hv'
    · exact ⟨_, rfl⟩

/-- the fields that leave a mirror at an angle -/
theorem scatter {x : P × Key O K → F} (hS : m.Still env x) (hAOI : m.AOI_deg ≠ 0) {cs : List (Coupling P (Key O K) F)}
    (h : m.setup env = .ok cs) (k : OKey O K) :
    (cs.map (fun c => c.into x ((m.port .FrA).o, .opt k))).sum =
      m.t env * x ((m.port .BkA).i, .opt k) + m.r env * m.turn env m.phase_rad k.q * x ((m.port .FrB).i, .opt k) +
      m.rBS env * m.turn env m.backscatter_phase_rad k.q * x ((m.port .FrA).i, .opt k) +
      m.l env * x ((m.port .LFrA).i, .opt k) ∧
    (cs.map (fun c => c.into x ((m.port .FrB).o, .opt k))).sum =
      m.t env * x ((m.port .BkB).i, .opt k) + m.r env * m.turn env m.phase_rad k.q * x ((m.port .FrA).i, .opt k) -
      m.rBS env * m.turn env m.backscatter_phase_rad k.q * x ((m.port .FrB).i, .opt k) +
      m.l env * x ((m.port .LFrB).i, .opt k) ∧
    (cs.map (fun c => c.into x ((m.port .BkA).o, .opt k))).sum =
      m.t env * x ((m.port .FrA).i, .opt k) - m.r env * m.turn env m.phase_rad k.q * x ((m.port .BkB).i, .opt k) -
      m.rBS env * m.turn env m.backscatter_phase_rad k.q * x ((m.port .BkA).i, .opt k) +
      m.l env * x ((m.port .LBkA).i, .opt k) ∧
    (cs.map (fun c => c.into x ((m.port .BkB).o, .opt k))).sum =
      m.t env * x ((m.port .FrB).i, .opt k) - m.r env * m.turn env m.phase_rad k.q * x ((m.port .BkA).i, .opt k) +
      m.rBS env * m.turn env m.backscatter_phase_rad k.q * x ((m.port .BkB).i, .opt k) +
      m.l env * x ((m.port .LBkB).i, .opt k) := by
  have p4 : ∀ a b, m.at4 a b = m.port a := fun a b => if_neg hAOI
  have n := fun {a b : MPort} (hab : a ≠ b) => hS.toMounted.ne env hab
  have no := fun {a b : MPort} (hab : a ≠ b) => hS.toMounted.ne_o env hab
  unfold setup at h
  have hpo : m.ports_optical = [m.port .FrA, m.port .BkA, m.port .FrB, m.port .BkB] := by
    unfold ports_optical FrA BkA FrB BkB
    rw [if_neg hAOI, p4, p4, p4, p4]
  have hpl : m.ports_optical_loss = [m.port .LFrA, m.port .LBkA, m.port .LFrB, m.port .LBkB] := by
    unfold ports_optical_loss LFrA LBkA LFrB LBkB
    rw [if_neg hAOI, p4, p4, p4, p4]
  rw [hpo] at h
  obtain ⟨c1, d1, h1, hd1, rfl⟩ := blocks_cons h
  obtain ⟨c2, d2, h2, hd2, rfl⟩ := blocks_cons hd1
  obtain ⟨c3, d3, h3, hd3, rfl⟩ := blocks_cons hd2
  obtain ⟨c4, d4, h4, hd4, rfl⟩ := blocks_cons hd3
  obtain ⟨c5, d5, h5, hd5, rfl⟩ := blocks_cons hd4
  obtain rfl := blocks_nil hd5
  have a1 := fun q j => at_port_total env m (p := m.port .FrA) (tp := m.port .BkA) (rp := m.port .FrB) (bp := m.port .FrA)
    (s := 1) (tv := m.t env) (rv := m.r env) (bv := m.rBS env)
    (by unfold mod_sign_map FrA BkA FrB BkB; rw [get4, p4, p4, p4, p4, if_neg (n (by decide)), if_neg (n (by decide)), if_neg (n (by decide)), if_pos rfl])
    (by unfold tmap FrA BkA FrB BkB; rw [get4, p4, p4, p4, p4, if_neg (n (by decide)), if_neg (n (by decide)), if_neg (n (by decide)), if_pos rfl])
    (by unfold rmap FrA BkA FrB BkB; rw [get4, p4, p4, p4, p4, if_neg (n (by decide)), if_neg (n (by decide)), if_neg (n (by decide)), if_pos rfl])
    (by unfold rBSmap FrA BkA FrB BkB; rw [get4, p4, p4, p4, p4, if_neg (n (by decide)), if_neg (n (by decide)), if_neg (n (by decide)), if_pos rfl])
    (by unfold lmap LFrA LBkA LFrB LBkB; rw [get4, p4, p4, p4, p4, if_neg (n (by decide)), if_neg (n (by decide)), if_neg (n (by decide)), if_neg (n (by decide))])
    (hS.toMounted.t0 env) (hS.toMounted.r0 env) (hS.toMounted.b0 env) hS.Zd hS.ZF (hS.nodup _) h1 x hS.silent (hS.outside _) q j
  have a2 := fun q j => at_port_total env m (p := m.port .BkA) (tp := m.port .FrA) (rp := m.port .BkB) (bp := m.port .BkA)
    (s := -1) (tv := m.t env) (rv := -m.r env) (bv := -m.rBS env)
    (by unfold mod_sign_map FrA BkA FrB BkB; rw [get4, p4, p4, p4, p4, if_neg (n (by decide)), if_neg (n (by decide)), if_pos rfl])
    (by unfold tmap FrA BkA FrB BkB; rw [get4, p4, p4, p4, p4, if_neg (n (by decide)), if_neg (n (by decide)), if_pos rfl])
    (by unfold rmap FrA BkA FrB BkB; rw [get4, p4, p4, p4, p4, if_neg (n (by decide)), if_neg (n (by decide)), if_pos rfl])
    (by unfold rBSmap FrA BkA FrB BkB; rw [get4, p4, p4, p4, p4, if_neg (n (by decide)), if_pos rfl])
    (by unfold lmap LFrA LBkA LFrB LBkB; rw [get4, p4, p4, p4, p4, if_neg (n (by decide)), if_neg (n (by decide)), if_neg (n (by decide)), if_neg (n (by decide))])
    (hS.toMounted.t0 env) (fun h => by rw [hS.toMounted.r0 env h, neg_zero]) (fun h => by rw [hS.toMounted.b0 env h, neg_zero]) hS.Zd hS.ZF (hS.nodup _) h2 x hS.silent (hS.outside _) q j
  have a3 := fun q j => at_port_total env m (p := m.port .FrB) (tp := m.port .BkB) (rp := m.port .FrA) (bp := m.port .FrB)
    (s := 1) (tv := m.t env) (rv := m.r env) (bv := -m.rBS env)
    (by unfold mod_sign_map FrA BkA FrB BkB; rw [get4, p4, p4, p4, p4, if_neg (n (by decide)), if_pos rfl])
    (by unfold tmap FrA BkA FrB BkB; rw [get4, p4, p4, p4, p4, if_neg (n (by decide)), if_pos rfl])
    (by unfold rmap FrA BkA FrB BkB; rw [get4, p4, p4, p4, p4, if_neg (n (by decide)), if_pos rfl])
    (by unfold rBSmap FrA BkA FrB BkB; rw [get4, p4, p4, p4, p4, if_neg (n (by decide)), if_neg (n (by decide)), if_pos rfl])
    (by unfold lmap LFrA LBkA LFrB LBkB; rw [get4, p4, p4, p4, p4, if_neg (n (by decide)), if_neg (n (by decide)), if_neg (n (by decide)), if_neg (n (by decide))])
    (hS.toMounted.t0 env) (hS.toMounted.r0 env) (fun h => by rw [hS.toMounted.b0 env h, neg_zero]) hS.Zd hS.ZF (hS.nodup _) h3 x hS.silent (hS.outside _) q j
  have a4 := fun q j => at_port_total env m (p := m.port .BkB) (tp := m.port .FrB) (rp := m.port .BkA) (bp := m.port .BkB)
    (s := -1) (tv := m.t env) (rv := -m.r env) (bv := m.rBS env)
    (by unfold mod_sign_map FrA BkA FrB BkB; rw [get4, p4, p4, p4, p4, if_pos rfl])
    (by unfold tmap FrA BkA FrB BkB; rw [get4, p4, p4, p4, p4, if_pos rfl])
    (by unfold rmap FrA BkA FrB BkB; rw [get4, p4, p4, p4, p4, if_pos rfl])
    (by unfold rBSmap FrA BkA FrB BkB; rw [get4, p4, p4, p4, p4, if_pos rfl])
    (by unfold lmap LFrA LBkA LFrB LBkB; rw [get4, p4, p4, p4, p4, if_neg (n (by decide)), if_neg (n (by decide)), if_neg (n (by decide)), if_neg (n (by decide))])
    (hS.toMounted.t0 env) (fun h => by rw [hS.toMounted.r0 env h, neg_zero]) (hS.toMounted.b0 env) hS.Zd hS.ZF (hS.nodup _) h4 x hS.silent (hS.outside _) q j
  have a5 := fun q j => loss_total env m hpl (tgt := fun p => if p = m.port .LFrA then m.port .FrA else
      if p = m.port .LBkA then m.port .BkA else if p = m.port .LFrB then m.port .FrB else m.port .BkB)
    (by
      intro p hp
      unfold lmap LFrA LBkA LFrB LBkB FrA BkA FrB BkB
      rw [get4, p4, p4, p4, p4, p4, p4, p4, p4]
      simp only [List.mem_cons, List.not_mem_nil, or_false] at hp
      rcases hp with rfl | rfl | rfl | rfl
      · rw [if_neg (n (by decide)), if_neg (n (by decide)), if_neg (n (by decide)), if_pos rfl, if_pos rfl]
      · rw [if_neg (n (by decide)), if_neg (n (by decide)), if_pos rfl, if_neg (n (by decide)), if_pos rfl]
      · rw [if_neg (n (by decide)), if_pos rfl, if_neg (n (by decide)), if_neg (n (by decide)), if_pos rfl]
      · rw [if_pos rfl, if_neg (n (by decide)), if_neg (n (by decide)), if_neg (n (by decide))])
    (hS.toMounted.l0 env) (by
      intro p hp
      simp only [List.mem_cons, List.not_mem_nil, or_false] at hp
      rcases hp with rfl | rfl | rfl | rfl <;> exact hS.nodup _) h5 x (by
      intro p hp
      simp only [List.mem_cons, List.not_mem_nil, or_false] at hp
      rcases hp with rfl | rfl | rfl | rfl <;> exact hS.outside _) q j
  have hsum : ∀ q j, total (c1 ++ (c2 ++ (c3 ++ (c4 ++ (c5 ++ []))))) x (on q j) =
      total c1 x (on q j) + total c2 x (on q j) + total c3 x (on q j) + total c4 x (on q j) + total c5 x (on q j) := by
    intro q j
    simp only [total_append, total_nil]
    ring
  simp only [List.map_cons, List.map_nil, List.sum_cons, List.sum_nil, if_true,
    if_neg (n (show MPort.LBkA ≠ .LFrA by decide)), if_neg (n (show MPort.LFrB ≠ .LFrA by decide)),
    if_neg (n (show MPort.LBkB ≠ .LFrA by decide)), if_neg (n (show MPort.LFrB ≠ .LBkA by decide)),
    if_neg (n (show MPort.LBkB ≠ .LBkA by decide)), if_neg (n (show MPort.LBkB ≠ .LFrB by decide))] at a5
  have z : ∀ {a b : MPort} (v : F), a ≠ b → (if (m.port a).o = (m.port b).o then v else 0) = 0 := fun v hab => if_neg (no hab)
  refine ⟨(hsum _ k).trans ?_, (hsum _ k).trans ?_, (hsum _ k).trans ?_, (hsum _ k).trans ?_⟩
  all_goals
    rw [a1, a2, a3, a4, a5]
    simp (discharger := decide) only [z, if_true]
    ring

/-- the fields that leave a mirror at normal incidence -/
theorem normal {x : P × Key O K → F} (hS : m.Still env x) (hAOI : m.AOI_deg = 0) {cs : List (Coupling P (Key O K) F)}
    (h : m.setup env = .ok cs) (k : OKey O K) :
    (cs.map (fun c => c.into x ((m.port .Fr).o, .opt k))).sum =
      m.t env * x ((m.port .Bk).i, .opt k) + (m.r env * m.turn env m.phase_rad k.q -
        m.rBS env * m.turn env m.backscatter_phase_rad k.q) * x ((m.port .Fr).i, .opt k) +
      m.l env * x ((m.port .LFr).i, .opt k) ∧
    (cs.map (fun c => c.into x ((m.port .Bk).o, .opt k))).sum =
      m.t env * x ((m.port .Fr).i, .opt k) - (m.r env * m.turn env m.phase_rad k.q -
        m.rBS env * m.turn env m.backscatter_phase_rad k.q) * x ((m.port .Bk).i, .opt k) +
      m.l env * x ((m.port .LBk).i, .opt k) := by
  have p2 : ∀ a b, m.at4 a b = m.port b := fun a b => if_pos hAOI
  have n := fun {a b : MPort} (hab : a ≠ b) => hS.toMounted.ne env hab
  have no := fun {a b : MPort} (hab : a ≠ b) => hS.toMounted.ne_o env hab
  unfold setup at h
  have hpo : m.ports_optical = [m.port .Fr, m.port .Bk] := by
    unfold ports_optical FrA BkA
    rw [if_pos hAOI, p2, p2]
  have hpl : m.ports_optical_loss = [m.port .LFr, m.port .LBk] := by
    unfold ports_optical_loss LFrA LBkA
    rw [if_pos hAOI, p2, p2]
  rw [hpo] at h
  obtain ⟨c1, d1, h1, hd1, rfl⟩ := blocks_cons h
  obtain ⟨c2, d2, h2, hd2, rfl⟩ := blocks_cons hd1
  obtain ⟨c5, d5, h5, hd5, rfl⟩ := blocks_cons hd2
  obtain rfl := blocks_nil hd5
  have a1 := fun q j => at_port_total env m (p := m.port .Fr) (tp := m.port .Bk) (rp := m.port .Fr) (bp := m.port .Fr)
    (s := 1) (tv := m.t env) (rv := m.r env) (bv := -m.rBS env)
    (by unfold mod_sign_map FrA BkA FrB BkB; rw [get4, p2, p2, p2, p2, if_neg (n (by decide)), if_pos rfl])
    (by unfold tmap FrA BkA FrB BkB; rw [get4, p2, p2, p2, p2, if_neg (n (by decide)), if_pos rfl])
    (by unfold rmap FrA BkA FrB BkB; rw [get4, p2, p2, p2, p2, if_neg (n (by decide)), if_pos rfl])
    (by unfold rBSmap FrA BkA FrB BkB; rw [get4, p2, p2, p2, p2, if_neg (n (by decide)), if_neg (n (by decide)), if_pos rfl])
    (by unfold lmap LFrA LBkA LFrB LBkB; rw [get4, p2, p2, p2, p2, if_neg (n (by decide)), if_neg (n (by decide)), if_neg (n (by decide)), if_neg (n (by decide))])
    (hS.toMounted.t0 env) (hS.toMounted.r0 env) (fun h => by rw [hS.toMounted.b0 env h, neg_zero]) hS.Zd hS.ZF (hS.nodup _) h1 x hS.silent (hS.outside _) q j
  have a2 := fun q j => at_port_total env m (p := m.port .Bk) (tp := m.port .Fr) (rp := m.port .Bk) (bp := m.port .Bk)
    (s := -1) (tv := m.t env) (rv := -m.r env) (bv := m.rBS env)
    (by unfold mod_sign_map FrA BkA FrB BkB; rw [get4, p2, p2, p2, p2, if_pos rfl])
    (by unfold tmap FrA BkA FrB BkB; rw [get4, p2, p2, p2, p2, if_pos rfl])
    (by unfold rmap FrA BkA FrB BkB; rw [get4, p2, p2, p2, p2, if_pos rfl])
    (by unfold rBSmap FrA BkA FrB BkB; rw [get4, p2, p2, p2, p2, if_pos rfl])
    (by unfold lmap LFrA LBkA LFrB LBkB; rw [get4, p2, p2, p2, p2, if_neg (n (by decide)), if_neg (n (by decide)), if_neg (n (by decide)), if_neg (n (by decide))])
    (hS.toMounted.t0 env) (fun h => by rw [hS.toMounted.r0 env h, neg_zero]) (hS.toMounted.b0 env) hS.Zd hS.ZF (hS.nodup _) h2 x hS.silent (hS.outside _) q j
  have a5 := fun q j => loss_total env m hpl (tgt := fun p => if p = m.port .LFr then m.port .Fr else m.port .Bk)
    (by
      intro p hp
      unfold lmap LFrA LBkA LFrB LBkB FrA BkA FrB BkB
      rw [get4, p2, p2, p2, p2, p2, p2, p2, p2]
      simp only [List.mem_cons, List.not_mem_nil, or_false] at hp
      rcases hp with rfl | rfl
      · rw [if_neg (n (by decide)), if_pos rfl, if_pos rfl]
      · rw [if_pos rfl, if_neg (n (by decide))])
    (hS.toMounted.l0 env) (by
      intro p hp
      simp only [List.mem_cons, List.not_mem_nil, or_false] at hp
      rcases hp with rfl | rfl <;> exact hS.nodup _) h5 x (by
      intro p hp
      simp only [List.mem_cons, List.not_mem_nil, or_false] at hp
      rcases hp with rfl | rfl <;> exact hS.outside _) q j
  have hsum : ∀ q j, total (c1 ++ (c2 ++ (c5 ++ []))) x (on q j) =
      total c1 x (on q j) + total c2 x (on q j) + total c5 x (on q j) := by
    intro q j
    simp only [total_append, total_nil]
    ring
  simp only [List.map_cons, List.map_nil, List.sum_cons, List.sum_nil, if_true,
    if_neg (n (show MPort.LBk ≠ .LFr by decide))] at a5
  have z : ∀ {a b : MPort} (v : F), a ≠ b → (if (m.port a).o = (m.port b).o then v else 0) = 0 := fun v hab => if_neg (no hab)
  refine ⟨(hsum _ k).trans ?_, (hsum _ k).trans ?_⟩
  all_goals
    rw [a1, a2, a5]
    simp (discharger := decide) only [z, if_true]
    ring

/-- **C67.**  The fields that leave a mirror at an angle: every output is the transmission of one input, the reflection of
another (with the opposite sign on the back side), the backscatter of the same port and the vacuum of one loss port.  The
amplitudes are the square roots of `T_hr - L_t`, `1 - T_hr - L_hr - R_backscatter`, `R_backscatter` and `L_hr + L_t`;
`flip_sign` turns the signs of the two reflections. -/
theorem C67_scatter {x : P × Key O K → F} (hS : m.Still env x) (hAOI : m.AOI_deg ≠ 0) {t r b l s : F}
    (hs : s = if m.flip_sign = true then -1 else 1) (ht : t = env.sqrt (m.T_hr - m.L_t))
    (hr : r = s * env.sqrt (1 - m.T_hr - m.L_hr - m.R_backscatter)) (hb : b = s * env.sqrt m.R_backscatter)
    (hl : l = env.sqrt (m.L_hr + m.L_t)) {cs : List (Coupling P (Key O K) F)} (h : m.setup env = .ok cs) (k : OKey O K) :
    (cs.map (fun c => c.into x ((m.port .FrA).o, .opt k))).sum =
      t * x ((m.port .BkA).i, .opt k) + r * m.turn env m.phase_rad k.q * x ((m.port .FrB).i, .opt k) +
      b * m.turn env m.backscatter_phase_rad k.q * x ((m.port .FrA).i, .opt k) + l * x ((m.port .LFrA).i, .opt k) ∧
    (cs.map (fun c => c.into x ((m.port .FrB).o, .opt k))).sum =
      t * x ((m.port .BkB).i, .opt k) + r * m.turn env m.phase_rad k.q * x ((m.port .FrA).i, .opt k) -
      b * m.turn env m.backscatter_phase_rad k.q * x ((m.port .FrB).i, .opt k) + l * x ((m.port .LFrB).i, .opt k) ∧
    (cs.map (fun c => c.into x ((m.port .BkA).o, .opt k))).sum =
      t * x ((m.port .FrA).i, .opt k) - r * m.turn env m.phase_rad k.q * x ((m.port .BkB).i, .opt k) -
      b * m.turn env m.backscatter_phase_rad k.q * x ((m.port .BkA).i, .opt k) + l * x ((m.port .LBkA).i, .opt k) ∧
    (cs.map (fun c => c.into x ((m.port .BkB).o, .opt k))).sum =
      t * x ((m.port .FrB).i, .opt k) - r * m.turn env m.phase_rad k.q * x ((m.port .BkA).i, .opt k) +
      b * m.turn env m.backscatter_phase_rad k.q * x ((m.port .BkB).i, .opt k) + l * x ((m.port .LBkB).i, .opt k) := by
  have e1 : t = m.t env := ht
  have e2 : r = m.r env := by
    unfold Mirror.r
    rw [hr, hs]
    split_ifs
    · rw [neg_one_mul]; rfl
    · rw [one_mul]; rfl
  have e3 : b = m.rBS env := by
    unfold rBS
    rw [hb, hs]
    split_ifs
    · rw [neg_one_mul]
    · rw [one_mul]
  have e4 : l = m.l env := hl
  rw [e1, e2, e3, e4]
  exact scatter env hS hAOI h k

/-- **C67.**  The fields that leave a mirror at normal incidence.  The backscatter goes to the port of the reflection, and
with the opposite sign. -/
theorem C67_normal {x : P × Key O K → F} (hS : m.Still env x) (hAOI : m.AOI_deg = 0) {t r b l s : F}
    (hs : s = if m.flip_sign = true then -1 else 1) (ht : t = env.sqrt (m.T_hr - m.L_t))
    (hr : r = s * env.sqrt (1 - m.T_hr - m.L_hr - m.R_backscatter)) (hb : b = s * env.sqrt m.R_backscatter)
    (hl : l = env.sqrt (m.L_hr + m.L_t)) {cs : List (Coupling P (Key O K) F)} (h : m.setup env = .ok cs) (k : OKey O K) :
    (cs.map (fun c => c.into x ((m.port .Fr).o, .opt k))).sum =
      t * x ((m.port .Bk).i, .opt k) +
      (r * m.turn env m.phase_rad k.q - b * m.turn env m.backscatter_phase_rad k.q) * x ((m.port .Fr).i, .opt k) +
      l * x ((m.port .LFr).i, .opt k) ∧
    (cs.map (fun c => c.into x ((m.port .Bk).o, .opt k))).sum =
      t * x ((m.port .Fr).i, .opt k) -
      (r * m.turn env m.phase_rad k.q - b * m.turn env m.backscatter_phase_rad k.q) * x ((m.port .Bk).i, .opt k) +
      l * x ((m.port .LBk).i, .opt k) := by
  have e1 : t = m.t env := ht
  have e2 : r = m.r env := by
    unfold Mirror.r
    rw [hr, hs]
    split_ifs
    · rw [neg_one_mul]; rfl
    · rw [one_mul]; rfl
  have e3 : b = m.rBS env := by
    unfold rBS
    rw [hb, hs]
    split_ifs
    · rw [neg_one_mul]
    · rw [one_mul]
  have e4 : l = m.l env := hl
  rw [e1, e2, e3, e4]
  exact normal env hS hAOI h k

/-! ## energy -/

/-- The square roots the mirror takes are real square roots. -/
structure RealRoots (m : Mirror P F) : Prop where
  sq : ∀ v ∈ [m.T, m.R, m.R_backscatter, m.L], env.sqrt v * env.sqrt v = v
  real : ∀ v ∈ [m.T, m.R, m.R_backscatter, m.L], star (env.sqrt v) = env.sqrt v
  exp0 : env.exp 0 = 1

theorem RealRoots.t2 (h : RealRoots env m) : m.t env * m.t env = m.T := h.sq _ (by simp)
theorem RealRoots.l2 (h : RealRoots env m) : m.l env * m.l env = m.L := h.sq _ (by simp)
theorem RealRoots.r2 (h : RealRoots env m) : m.r env * m.r env = m.R := by
  unfold r
  split_ifs
  · rw [neg_mul_neg]; exact h.sq _ (by simp)
  · exact h.sq _ (by simp)
theorem RealRoots.b2 (h : RealRoots env m) : m.rBS env * m.rBS env = m.R_backscatter := by
  unfold rBS
  split_ifs
  · rw [neg_mul_neg]; exact h.sq _ (by simp)
  · exact h.sq _ (by simp)
theorem RealRoots.t_star (h : RealRoots env m) : star (m.t env) = m.t env := h.real _ (by simp)
theorem RealRoots.l_star (h : RealRoots env m) : star (m.l env) = m.l env := h.real _ (by simp)
theorem RealRoots.r_star (h : RealRoots env m) : star (m.r env) = m.r env := by
  unfold r
  split_ifs
  · rw [star_neg, h.real _ (by simp)]
  · exact h.real _ (by simp)
theorem RealRoots.b_star (h : RealRoots env m) : star (m.rBS env) = m.rBS env := by
  unfold rBS
  split_ifs
  · rw [star_neg, h.real _ (by simp)]
  · exact h.real _ (by simp)

theorem RealRoots.turn_one (h : RealRoots env m) (hφ : m.phase_rad = 0) (test : F) (q : Quantum) : m.turn env test q = 1 := by
  unfold turn Quantum.pick
  rw [hφ, mul_zero, mul_zero, h.exp0]
  cases q <;> simp

/-- The power in a field. -/
def power (a : F) : F := a * star a

/-- **C67**, the part that holds: a mirror at an angle whose phase is zero, with dark loss ports, puts out `1 - L` times the
power that comes in at its four ports.  What is missing: other phases and backscatter at normal incidence
(`C67_phase_refuted`, `C67_backscatter_refuted`). -/
theorem C67_energy_partial {x : P × Key O K → F} (hS : m.Still env x) (hr : RealRoots env m) (hAOI : m.AOI_deg ≠ 0)
    (hφ : m.phase_rad = 0) {cs : List (Coupling P (Key O K) F)} (h : m.setup env = .ok cs) (k : OKey O K)
    (hdark : ∀ a ∈ [MPort.LFrA, .LFrB, .LBkA, .LBkB], x ((m.port a).i, .opt k) = 0) :
    ([MPort.FrA, .FrB, .BkA, .BkB].map
      (fun a => power (cs.map (fun c => c.into x ((m.port a).o, .opt k))).sum)).sum =
    (1 - (m.L_hr + m.L_t)) * ([MPort.FrA, .FrB, .BkA, .BkB].map (fun a => power (x ((m.port a).i, .opt k)))).sum := by
  obtain ⟨h1, h2, h3, h4⟩ := scatter env hS hAOI h k
  simp only [List.map_cons, List.map_nil, List.sum_cons, List.sum_nil]
  rw [h1, h2, h3, h4]
  simp only [hr.turn_one env hφ, hdark _ (show MPort.LFrA ∈ _ by simp), hdark _ (show MPort.LFrB ∈ _ by simp),
    hdark _ (show MPort.LBkA ∈ _ by simp), hdark _ (show MPort.LBkB ∈ _ by simp), power, star_add, star_sub, star_mul',
    star_zero, hr.t_star, hr.r_star, hr.b_star, star_one]
  have ht := hr.t2
  have hrr := hr.r2
  have hb := hr.b2
  have hsum : 1 - (m.L_hr + m.L_t) = m.t env * m.t env + m.r env * m.r env + m.rBS env * m.rBS env := by
    rw [ht, hrr, hb]
    unfold T R
    ring
  rw [hsum]
  ring

/-- **C67**, normal incidence: without backscatter and with phase zero the power that leaves is `1 - L` times the power that
comes in. -/
theorem C67_normal_energy_partial {x : P × Key O K → F} (hS : m.Still env x) (hr : RealRoots env m) (hAOI : m.AOI_deg = 0)
    (hφ : m.phase_rad = 0) (hB : m.R_backscatter = 0) {cs : List (Coupling P (Key O K) F)} (h : m.setup env = .ok cs)
    (k : OKey O K) (hdark : ∀ a ∈ [MPort.LFr, .LBk], x ((m.port a).i, .opt k) = 0) :
    ([MPort.Fr, .Bk].map (fun a => power (cs.map (fun c => c.into x ((m.port a).o, .opt k))).sum)).sum =
    (1 - (m.L_hr + m.L_t)) * ([MPort.Fr, .Bk].map (fun a => power (x ((m.port a).i, .opt k)))).sum := by
  obtain ⟨h1, h2⟩ := normal env hS hAOI h k
  simp only [List.map_cons, List.map_nil, List.sum_cons, List.sum_nil]
  rw [h1, h2]
  simp only [hr.turn_one env hφ, hS.toMounted.b0 env hB, hdark _ (show MPort.LFr ∈ _ by simp), hdark _ (show MPort.LBk ∈ _ by simp),
    power, star_add, star_sub, star_mul', star_zero, hr.t_star, hr.r_star, star_one]
  have ht := hr.t2
  have hrr := hr.r2
  have hsum : 1 - (m.L_hr + m.L_t) = m.t env * m.t env + m.r env * m.r env := by
    rw [ht, hrr]
    unfold T R
    rw [hB]
    ring
  rw [hsum]
  ring

/-- The field that is 1 at the key `k` of the input of one port, and zero elsewhere. -/
def unit (m : Mirror P F) (k : OKey O K) (a : MPort) : P × Key O K → F :=
  fun t => if t = ((m.port a).i, .opt k) then 1 else 0

/-- The amplitude that goes from the input `a` to the output `b`. -/
def gain (m : Mirror P F) (cs : List (Coupling P (Key O K) F)) (k : OKey O K) (a b : MPort) : F :=
  (cs.map (fun c => c.into (m.unit k a) ((m.port b).o, .opt k))).sum

theorem unit_at (hi : Function.Injective (fun a => (m.port a).i)) (k : OKey O K) (a c : MPort) :
    m.unit k a ((m.port c).i, .opt k) = if c = a then 1 else 0 := by
  unfold unit
  by_cases hca : c = a
  · rw [if_pos hca, hca, if_pos rfl]
  · rw [if_neg hca, if_neg]
    intro h
    exact hca (hi (congrArg Prod.fst h))

theorem unit_still (hM : m.Mounted env) (k : OKey O K) (hk : ∀ a, k ∈ env.okeys (m.port a).i) (a : MPort) :
    m.Still env (m.unit k a) := by
  refine ⟨hM, ?_, ?_⟩
  · intro c j hj
    unfold unit
    rw [if_neg]
    intro h
    injection h with h1 h2
    injection h2 with h2
    exact hj (h2 ▸ hk c)
  · intro l
    unfold unit
    rw [if_neg]
    intro h
    cases (congrArg Prod.snd h)

/-- **C67**, vacuum: the rows of the scattering matrix from the four ports and the four loss ports to the four outputs are
orthonormal: the outputs of uncorrelated vacuum fields are uncorrelated vacuum fields. -/
theorem C67_vacuum_partial (hM : m.Mounted env) (hi : Function.Injective (fun a => (m.port a).i))
    (hr : RealRoots env m) (hAOI : m.AOI_deg ≠ 0) (hφ : m.phase_rad = 0) {cs : List (Coupling P (Key O K) F)}
    (h : m.setup env = .ok cs) (k : OKey O K) (hk : ∀ a, k ∈ env.okeys (m.port a).i) (b b' : MPort)
    (hb : b ∈ [MPort.FrA, .FrB, .BkA, .BkB]) (hb' : b' ∈ [MPort.FrA, .FrB, .BkA, .BkB]) :
    ([MPort.FrA, .FrB, .BkA, .BkB, .LFrA, .LFrB, .LBkA, .LBkB].map
      (fun a => gain m cs k a b * star (gain m cs k a b'))).sum = if b = b' then 1 else 0 := by
  have hu := unit_at hi k
  have hSt := unit_still env hM k hk
  have key := fun a => scatter env (hSt a) hAOI h k
  have g1 := fun a => (key a).1
  have g2 := fun a => (key a).2.1
  have g3 := fun a => (key a).2.2.1
  have g4 := fun a => (key a).2.2.2
  simp only [hu, hr.turn_one env hφ] at g1 g2 g3 g4
  have ht := hr.t2
  have hrr := hr.r2
  have hbb := hr.b2
  have hll := hr.l2
  have hsum : m.t env * m.t env + m.r env * m.r env + m.rBS env * m.rBS env + m.l env * m.l env = 1 := by
    rw [ht, hrr, hbb, hll]
    unfold T R L
    ring
  simp only [List.mem_cons, List.not_mem_nil, or_false] at hb hb'
  unfold gain
  rcases hb with rfl | rfl | rfl | rfl <;> rcases hb' with rfl | rfl | rfl | rfl <;>
    simp only [List.map_cons, List.map_nil, List.sum_cons, List.sum_nil, g1, g2, g3, g4, reduceCtorEq, if_true, if_false,
      mul_one, mul_zero, add_zero, zero_add, sub_zero, zero_sub, star_neg, star_zero, zero_mul, hr.t_star, hr.r_star,
      hr.b_star, hr.l_star] <;>
    first
      | linear_combination hsum
      | ring

/-! ## examples and refutations -/

/-- ports for the examples -/
def dport (a : MPort) : Port (MPort × Fin 3) := ⟨(a, 0), (a, 1)⟩

/-- the environment of the examples: frequencies -1, 0 and 1 everywhere -/
noncomputable abbrev denv : OEnv (MPort × Fin 3) Unit ℤ ℂ :=
  demo (fun _ => keysAt [0, 1, -1]) (fun _ => [0, 1, -1]) (fun _ => false)

/-- a mirror of the examples -/
def dm (flip : Bool) (B T Lhr Lt φ β A : ℝ) : Mirror (MPort × Fin 3) ℂ :=
  ⟨flip, B, T, Lhr, Lt, φ, β, A, dport, (.Fr, 2), (.Bk, 2)⟩

theorem dm_mounted (flip : Bool) (B T Lhr Lt φ β A : ℝ) : (dm flip B T Lhr Lt φ β A).Mounted denv where
  inj := fun _ _ h => congrArg Prod.fst h
  nodup := fun _ => keysAt_nodup (by decide)
  Zd := show Balanced [0, 1, -1] from ⟨by decide, by decide⟩
  ZF := show Balanced [0, 1, -1] from ⟨by decide, by decide⟩
  sqrt0 := csqrt_zero

theorem dm_setup (flip : Bool) (B T Lhr Lt φ β A : ℝ) : ∃ cs, (dm flip B T Lhr Lt φ β A).setup denv = .ok cs :=
  setup_ok denv (dm_mounted ..).Zd.2 (dm_mounted ..).ZF.2

theorem dm_roots (flip : Bool) {B T Lhr Lt : ℝ} (φ β A : ℝ) (h1 : 0 ≤ T - Lt) (h2 : 0 ≤ 1 - T - Lhr - B) (h3 : 0 ≤ B)
    (h4 : 0 ≤ Lhr + Lt) : RealRoots denv (dm flip B T Lhr Lt φ β A) where
  sq := by
    intro v hv
    have e1 : (dm flip B T Lhr Lt φ β A).T = ((T - Lt : ℝ) : ℂ) := by simp [Mirror.T, dm]
    have e2 : (dm flip B T Lhr Lt φ β A).R = ((1 - T - Lhr - B : ℝ) : ℂ) := by simp [Mirror.R, dm]
    have e3 : (dm flip B T Lhr Lt φ β A).R_backscatter = ((B : ℝ) : ℂ) := rfl
    have e4 : (dm flip B T Lhr Lt φ β A).L = ((Lhr + Lt : ℝ) : ℂ) := by simp [Mirror.L, dm]
    rw [e1, e2, e3, e4] at hv
    simp only [List.mem_cons, List.not_mem_nil, or_false] at hv
    rcases hv with rfl | rfl | rfl | rfl
    · exact csqrt_sq h1
    · exact csqrt_sq h2
    · exact csqrt_sq h3
    · exact csqrt_sq h4
  real := fun v _ => csqrt_real v
  exp0 := Complex.exp_zero

/-- a key of the examples -/
def k0 : OKey Unit ℤ := ⟨(), 0, .S, .lower⟩

/-- the fields `a` at one input and `b` at another -/
noncomputable def two (p q : MPort) (a b : ℂ) : (MPort × Fin 3) × Key Unit ℤ → ℂ :=
  fun t => if t = ((p, 0), .opt k0) then a else if t = ((q, 0), .opt k0) then b else 0

theorem two_at (p q : MPort) (a b : ℂ) (c : MPort) :
    two p q a b ((dport c).i, .opt k0) = if c = p then a else if c = q then b else 0 := by
  unfold two dport
  simp

theorem two_still (p q : MPort) (a b : ℂ) (flip : Bool) (B T Lhr Lt φ β A : ℝ) :
    (dm flip B T Lhr Lt φ β A).Still denv (two p q a b) where
  toMounted := dm_mounted ..
  outside := by
    intro c k hk
    have : k ≠ k0 := by
      rintro rfl
      exact hk (mem_keysAt.2 (by decide))
    simp [two, this]
  silent := by
    intro l
    simp [two]

example : ∃ cs, (dm true (1/10) (3/10) (1/10) (1/20) 0 0 45).setup denv = .ok cs ∧
    (dm true (1/10) (3/10) (1/10) (1/20) 0 0 45).Still denv (two .FrA .BkB 1 Complex.I) ∧
    RealRoots denv (dm true (1/10) (3/10) (1/10) (1/20) 0 0 45) ∧
    (dm true (1/10) (3/10) (1/10) (1/20) 0 0 45).AOI_deg ≠ 0 ∧
    ∀ a ∈ [MPort.LFrA, .LFrB, .LBkA, .LBkB], two .FrA .BkB 1 Complex.I ((dport a).i, .opt k0) = 0 := by
  obtain ⟨cs, hcs⟩ := dm_setup true (1/10) (3/10) (1/10) (1/20) 0 0 45
  refine ⟨cs, hcs, two_still .., dm_roots true 0 0 45 (by norm_num) (by norm_num) (by norm_num) (by norm_num), ?_, ?_⟩
  · simp [dm]
  · intro a ha
    rw [two_at]
    simp only [List.mem_cons, List.not_mem_nil, or_false] at ha
    rcases ha with rfl | rfl | rfl | rfl <;> rfl

example : ∃ cs, (dm true 0 (3/10) (1/10) (1/20) 0 0 0).setup denv = .ok cs ∧
    (dm true 0 (3/10) (1/10) (1/20) 0 0 0).Still denv (two .Fr .Bk 1 Complex.I) ∧
    RealRoots denv (dm true 0 (3/10) (1/10) (1/20) 0 0 0) ∧ (dm true 0 (3/10) (1/10) (1/20) 0 0 0).AOI_deg = 0 ∧
    (dm true 0 (3/10) (1/10) (1/20) 0 0 0).R_backscatter = 0 ∧
    ∀ a ∈ [MPort.LFr, .LBk], two .Fr .Bk 1 Complex.I ((dport a).i, .opt k0) = 0 := by
  obtain ⟨cs, hcs⟩ := dm_setup true 0 (3/10) (1/10) (1/20) 0 0 0
  refine ⟨cs, hcs, two_still .., dm_roots true 0 0 0 (by norm_num) (by norm_num) (by norm_num) (by norm_num), ?_, ?_, ?_⟩
  · simp [dm]
  · simp [dm]
  · intro a ha
    rw [two_at]
    simp only [List.mem_cons, List.not_mem_nil, or_false] at ha
    rcases ha with rfl | rfl <;> rfl

example : (dm true (1/10) (3/10) (1/10) (1/20) 0 0 45).Mounted denv ∧
    Function.Injective (fun a => ((dm true (1/10) (3/10) (1/10) (1/20) 0 0 45).port a).i) ∧
    (∀ a, k0 ∈ denv.okeys ((dm true (1/10) (3/10) (1/10) (1/20) 0 0 45).port a).i) ∧
    (dm true (1/10) (3/10) (1/10) (1/20) 0 0 45).phase_rad = 0 :=
  ⟨dm_mounted .., fun _ _ h => congrArg Prod.fst h, fun _ => mem_keysAt.2 (by decide), by simp [dm]⟩

/-- **C67** is false for a phase other than zero: the same factor on both sides.  A beam splitter without losses whose
`phase_rad` is a quarter turn puts out twice the power it gets. -/
theorem C67_phase_refuted : ∃ (env : OEnv (MPort × Fin 3) Unit ℤ ℂ) (m : Mirror (MPort × Fin 3) ℂ)
    (x : (MPort × Fin 3) × Key Unit ℤ → ℂ) (cs : List (Coupling (MPort × Fin 3) (Key Unit ℤ) ℂ)) (k : OKey Unit ℤ),
    m.Still env x ∧ RealRoots env m ∧ m.AOI_deg ≠ 0 ∧ m.L_hr + m.L_t = 0 ∧ m.R_backscatter = 0 ∧ m.setup env = .ok cs ∧
    ([MPort.FrA, .FrB, .BkA, .BkB].map (fun a => power (x ((m.port a).i, .opt k)))).sum = 2 ∧
    ([MPort.FrA, .FrB, .BkA, .BkB].map
      (fun a => power (cs.map (fun c => c.into x ((m.port a).o, .opt k))).sum)).sum = 4 := by
  obtain ⟨cs, hcs⟩ := dm_setup false 0 (1/2) 0 0 (Real.pi / 2) 0 45
  have hA : (dm false 0 (1/2) 0 0 (Real.pi / 2) 0 45).AOI_deg ≠ 0 := by simp [dm]
  have hst := two_still .BkA .FrB 1 (-Complex.I) false 0 (1/2) 0 0 (Real.pi / 2) 0 45
  have hr := dm_roots false (B := 0) (T := 1/2) (Lhr := 0) (Lt := 0) (Real.pi / 2) 0 45 (by norm_num) (by norm_num)
    (by norm_num) (by norm_num)
  refine ⟨denv, dm false 0 (1/2) 0 0 (Real.pi / 2) 0 45, two .BkA .FrB 1 (-Complex.I), cs, k0, hst, hr, hA,
    by simp [dm], by simp [dm], hcs, ?_, ?_⟩
  · show ([MPort.FrA, .FrB, .BkA, .BkB].map (fun a => power (two .BkA .FrB 1 (-Complex.I) ((dport a).i, .opt k0)))).sum = 2
    simp only [two_at, List.map_cons, List.map_nil, List.sum_cons, List.sum_nil, power]
    simp
    norm_num
  · obtain ⟨h1, h2, h3, h4⟩ := scatter denv hst hA hcs k0
    have hp : (dm false 0 (1/2) 0 0 (Real.pi / 2) 0 45).port = dport := rfl
    rw [hp] at h1 h2 h3 h4 ⊢
    simp only [two_at, reduceCtorEq, if_true, if_false, mul_one, mul_zero, add_zero, sub_zero, zero_sub] at h1 h2 h3 h4
    have ht2 := hr.t2
    have hr2 := hr.r2
    have hts := hr.t_star
    have hrs := hr.r_star
    have htr : (dm false 0 (1/2) 0 0 (Real.pi / 2) 0 45).r denv = (dm false 0 (1/2) 0 0 (Real.pi / 2) 0 45).t denv := by
      simp only [Mirror.r, Mirror.t, Mirror.R, Mirror.T, dm, Bool.false_eq_true, if_false]
      congr 1
      norm_num
    have hturn : (dm false 0 (1/2) 0 0 (Real.pi / 2) 0 45).turn denv (dm false 0 (1/2) 0 0 (Real.pi / 2) 0 45).phase_rad
        k0.q = Complex.I := by
      have hpi : (dm false 0 (1/2) 0 0 (Real.pi / 2) 0 45).phase_rad ≠ 0 := by
        show ((Real.pi / 2 : ℝ) : ℂ) ≠ 0
        exact_mod_cast (by positivity : (Real.pi / 2 : ℝ) ≠ 0)
      unfold turn
      rw [if_pos hpi]
      show Complex.exp (Complex.I * ((Real.pi / 2 : ℝ) : ℂ)) = Complex.I
      rw [mul_comm]
      push_cast
      exact Complex.exp_pi_div_two_mul_I
    have hT : (dm false 0 (1/2) 0 0 (Real.pi / 2) 0 45).T = 1 / 2 := by simp [Mirror.T, dm]
    have hb : (dm false 0 (1/2) 0 0 (Real.pi / 2) 0 45).rBS denv = 0 := (dm_mounted ..).b0 denv (by simp [dm])
    rw [hb] at h2 h3
    rw [htr, hturn] at h1 h4
    rw [hT] at ht2
    simp only [zero_mul, neg_zero] at h2 h3
    simp only [List.map_cons, List.map_nil, List.sum_cons, List.sum_nil, h1, h2, h3, h4, power]
    generalize (dm false 0 (1/2) 0 0 (Real.pi / 2) 0 45).t denv = t at ht2 hts
    simp only [star_add, star_sub, star_neg, star_mul', star_zero, hts, Complex.star_def, Complex.conj_I, mul_zero]
    have hI : Complex.I * Complex.I = -1 := Complex.I_mul_I
    linear_combination (8 : ℂ) * ht2 + (t * t) * (Complex.I * Complex.I - 7) * hI

/-- **C67** is false for a mirror at normal incidence with backscatter: reflection and backscatter go to the same port with
opposite signs.  A mirror without transmission and losses that scatters half of the light back puts out nothing. -/
theorem C67_backscatter_refuted : ∃ (env : OEnv (MPort × Fin 3) Unit ℤ ℂ) (m : Mirror (MPort × Fin 3) ℂ)
    (x : (MPort × Fin 3) × Key Unit ℤ → ℂ) (cs : List (Coupling (MPort × Fin 3) (Key Unit ℤ) ℂ)) (k : OKey Unit ℤ),
    m.Still env x ∧ RealRoots env m ∧ m.AOI_deg = 0 ∧ m.L_hr + m.L_t = 0 ∧ m.phase_rad = 0 ∧
    m.backscatter_phase_rad = 0 ∧ m.setup env = .ok cs ∧
    ([MPort.Fr, .Bk].map (fun a => power (x ((m.port a).i, .opt k)))).sum = 1 ∧
    ([MPort.Fr, .Bk].map (fun a => power (cs.map (fun c => c.into x ((m.port a).o, .opt k))).sum)).sum = 0 := by
  obtain ⟨cs, hcs⟩ := dm_setup false (1/2) 0 0 0 0 0 0
  have hA : (dm false (1/2) 0 0 0 0 0 0).AOI_deg = 0 := by simp [dm]
  have hst := two_still .Fr .Bk 1 0 false (1/2) 0 0 0 0 0 0
  have hr := dm_roots false (B := 1/2) (T := 0) (Lhr := 0) (Lt := 0) 0 0 0 (by norm_num) (by norm_num)
    (by norm_num) (by norm_num)
  refine ⟨denv, dm false (1/2) 0 0 0 0 0 0, two .Fr .Bk 1 0, cs, k0, hst, hr, hA,
    by simp [dm], by simp [dm], by simp [dm], hcs, ?_, ?_⟩
  · show ([MPort.Fr, .Bk].map (fun a => power (two .Fr .Bk 1 0 ((dport a).i, .opt k0)))).sum = 1
    simp [two_at, power]
  · obtain ⟨h1, h2⟩ := normal denv hst hA hcs k0
    have hp : (dm false (1/2) 0 0 0 0 0 0).port = dport := rfl
    rw [hp] at h1 h2 ⊢
    have htr : (dm false (1/2) 0 0 0 0 0 0).r denv = (dm false (1/2) 0 0 0 0 0 0).rBS denv := by
      simp only [Mirror.r, Mirror.rBS, Mirror.R, dm, Bool.false_eq_true, if_false]
      congr 1
      norm_num
    have ht : (dm false (1/2) 0 0 0 0 0 0).t denv = 0 := (dm_mounted ..).t0 denv (by simp [dm, Mirror.T])
    simp only [two_at, hr.turn_one denv (show (dm false (1/2) 0 0 0 0 0 0).phase_rad = 0 by simp [dm]), htr, ht, reduceCtorEq,
      if_true, if_false, sub_self, zero_mul, mul_zero, add_zero] at h1 h2
    simp only [List.map_cons, List.map_nil, List.sum_cons, List.sum_nil, h1, h2, power, star_zero, mul_zero, add_zero]

/-! ## the phase of the backscatter -/

/-- The phase of the backscatter has no effect at all on a mirror whose `phase_rad` is zero. -/
theorem C68_no_effect (h0 : env.exp 0 = 1) (hφ : m.phase_rad = 0) (β : F) :
    ({ m with backscatter_phase_rad := β } : Mirror P F).setup env = m.setup env := by
  have hrefl : ∀ (p q : Port P) (g s : F) (k : OKey O K),
      ({ m with backscatter_phase_rad := β } : Mirror P F).reflection env p q g β s k =
      m.reflection env p q g m.backscatter_phase_rad s k := by
    intro p q g s k
    unfold reflection
    simp only [hφ, mul_zero, h0, mul_one, ite_self]
    rfl
  have hback : ∀ (p : Port P) (s : F) (k : OKey O K),
      ({ m with backscatter_phase_rad := β } : Mirror P F).backscatter env p s k = m.backscatter env p s k := by
    intro p s k
    show (if m.R_backscatter ≠ 0 then (do
      let v ← Dict.get (m.rBSmap env) p
      (({ m with backscatter_phase_rad := β } : Mirror P F).reflection env p v.1 v.2 β s k).fill env k) else .ok []) = _
    simp only [hrefl]
    rfl
  have hat : ({ m with backscatter_phase_rad := β } : Mirror P F).at_port env = m.at_port env := by
    funext p
    show (do
      let mod_sign ← Dict.get m.mod_sign_map p
      blocks ((env.okeys p.i).map (fun k => blocks [m.transmit env p k, .ok (m.lose env p k), m.reflect env p mod_sign k,
        ({ m with backscatter_phase_rad := β } : Mirror P F).backscatter env p mod_sign k]))) = _
    simp only [hback]
    rfl
  show blocks (m.ports_optical.map (({ m with backscatter_phase_rad := β } : Mirror P F).at_port env) ++
    [m.loss_couplings env]) = _
  rw [hat]
  rfl

/-- **C68** is false: a mirror that scatters a quarter of the light back with the phase of half a turn scatters it back with
the amplitude `1/2`, not `-1/2`. -/
theorem C68_refuted : ∃ (env : OEnv (MPort × Fin 3) Unit ℤ ℂ) (m : Mirror (MPort × Fin 3) ℂ)
    (cs : List (Coupling (MPort × Fin 3) (Key Unit ℤ) ℂ)) (k : OKey Unit ℤ),
    m.Mounted env ∧ Function.Injective (fun a => (m.port a).i) ∧ m.AOI_deg ≠ 0 ∧ m.setup env = .ok cs ∧
    (∀ a, k ∈ env.okeys (m.port a).i) ∧ m.flip_sign = false ∧ k.q = .lower ∧
    env.sqrt m.R_backscatter * env.exp (env.i * m.backscatter_phase_rad) = -1 / 2 ∧ gain m cs k .FrA .FrA = 1 / 2 := by
  obtain ⟨cs, hcs⟩ := dm_setup false (1/4) 0 0 0 0 Real.pi 45
  have hM := dm_mounted false (1/4) 0 0 0 0 Real.pi 45
  have hi : Function.Injective (fun a => ((dm false (1/4) 0 0 0 0 Real.pi 45).port a).i) := fun _ _ h => congrArg Prod.fst h
  have hA : (dm false (1/4) 0 0 0 0 Real.pi 45).AOI_deg ≠ 0 := by simp [dm]
  have hk : ∀ a, k0 ∈ denv.okeys ((dm false (1/4) 0 0 0 0 Real.pi 45).port a).i := fun _ => mem_keysAt.2 (by decide)
  have hb : csqrt ((1/4 : ℝ) : ℂ) = 1 / 2 := by
    unfold csqrt
    rw [Complex.ofReal_re, show (1 / 4 : ℝ) = (1 / 2) ^ 2 by norm_num, Real.sqrt_sq (by norm_num)]
    norm_num
  refine ⟨denv, dm false (1/4) 0 0 0 0 Real.pi 45, cs, k0, hM, hi, hA, hcs, hk, rfl, rfl, ?_, ?_⟩
  · show csqrt ((1/4 : ℝ) : ℂ) * Complex.exp (Complex.I * (Real.pi : ℂ)) = _
    rw [hb, mul_comm Complex.I, Complex.exp_pi_mul_I]
    norm_num
  · have hr : RealRoots denv (dm false (1/4) 0 0 0 0 Real.pi 45) :=
      dm_roots false 0 Real.pi 45 (by norm_num) (by norm_num) (by norm_num) (by norm_num)
    have key := (scatter denv (unit_still denv hM k0 hk .FrA) hA hcs k0).1
    simp only [unit_at hi, hr.turn_one denv (show (dm false (1/4) 0 0 0 0 Real.pi 45).phase_rad = 0 by simp [dm]),
      reduceCtorEq, if_true, if_false, mul_one, mul_zero, add_zero, zero_add] at key
    exact key.trans hb

/-- **C68**, the part that holds: the light scattered back into a port is turned by `backscatter_phase_rad` when that is
`phase_rad`.  What is missing: the two may differ, and then the phase of the reflection is used (`C68_refuted`). -/
theorem C68_partial (hM : m.Mounted env) (hi : Function.Injective (fun a => (m.port a).i)) (hAOI : m.AOI_deg ≠ 0)
    (h0 : env.exp 0 = 1) (hφ : m.backscatter_phase_rad = m.phase_rad) {cs : List (Coupling P (Key O K) F)}
    (h : m.setup env = .ok cs) (k : OKey O K) (hk : ∀ a, k ∈ env.okeys (m.port a).i) {b : F}
    (hb : b = (if m.flip_sign = true then (-1 : F) else 1) * env.sqrt m.R_backscatter *
      env.exp (match k.q with
        | .lower => env.i * m.backscatter_phase_rad
        | .raise => -env.i * m.backscatter_phase_rad)) :
    gain m cs k .FrA .FrA = b ∧ gain m cs k .FrB .FrB = -b ∧ gain m cs k .BkA .BkA = -b ∧ gain m cs k .BkB .BkB = b := by
  have hu := unit_at hi k
  have hSt := unit_still env hM k hk
  have hb' : b = m.rBS env * m.turn env m.backscatter_phase_rad k.q := by
    rw [hb]
    unfold rBS turn Quantum.pick
    rw [← hφ]
    congr 1
    · split_ifs
      · rw [neg_one_mul]
      · rw [one_mul]
    · by_cases hz : m.backscatter_phase_rad = 0
      · rw [if_neg (not_not.2 hz), hz, mul_zero, mul_zero]
        cases k.q <;> exact h0
      · rw [if_pos hz]
        cases k.q <;> rfl
  have key := fun a => scatter env (hSt a) hAOI h k
  have g1 := (key .FrA).1
  have g2 := (key .FrB).2.1
  have g3 := (key .BkA).2.2.1
  have g4 := (key .BkB).2.2.2
  simp only [hu, reduceCtorEq, if_true, if_false, mul_one, mul_zero, add_zero, zero_add, sub_zero, zero_sub] at g1 g2 g3 g4
  rw [hb']
  exact ⟨g1, g2, g3, g4⟩

example : ∃ cs, (dm false (1/10) (3/10) 0 0 1 1 45).setup denv = .ok cs ∧ (dm false (1/10) (3/10) 0 0 1 1 45).Mounted denv ∧
    Function.Injective (fun a => ((dm false (1/10) (3/10) 0 0 1 1 45).port a).i) ∧
    (dm false (1/10) (3/10) 0 0 1 1 45).AOI_deg ≠ 0 ∧ denv.exp 0 = 1 ∧
    (dm false (1/10) (3/10) 0 0 1 1 45).backscatter_phase_rad = (dm false (1/10) (3/10) 0 0 1 1 45).phase_rad ∧
    ∀ a, k0 ∈ denv.okeys ((dm false (1/10) (3/10) 0 0 1 1 45).port a).i := by
  obtain ⟨cs, hcs⟩ := dm_setup false (1/10) (3/10) 0 0 1 1 45
  exact ⟨cs, hcs, dm_mounted .., fun _ _ h => congrArg Prod.fst h, by simp [dm], Complex.exp_zero, rfl,
    fun _ => mem_keysAt.2 (by decide)⟩

end Mirror
end Optics
