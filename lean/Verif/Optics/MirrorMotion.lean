import Verif.Optics.Mirror

/-!
# Moving mirrors: the phase of the reflected light (C69) and the force of the light (C70)
-/

set_option linter.unusedSectionVars false

namespace Optics
open Py Inject Circuit
open Signal (Balanced wave)

variable {P O K F : Type} [DecidableEq P] [DecidableEq O] [DecidableEq K] [AddCommGroup K] [Field F] [StarRing F]
  [DecidableEq F]
variable (env : OEnv P O K F)

theorem blocks_quad {α : Type} {l : List α} {f1 f2 f3 f4 : α → Except Err (List (Coupling P (Key O K) F))}
    {cs : List (Coupling P (Key O K) F)} (h : blocks (l.map (fun a => blocks [f1 a, f2 a, f3 a, f4 a])) = .ok cs) :
    ∃ c1 c2 c3 c4, blocks (l.map f1) = .ok c1 ∧ blocks (l.map f2) = .ok c2 ∧ blocks (l.map f3) = .ok c3 ∧
      blocks (l.map f4) = .ok c4 ∧
      ∀ x t, total cs x t = total c1 x t + total c2 x t + total c3 x t + total c4 x t := by
  induction l generalizing cs with
  | nil =>
    obtain rfl := blocks_nil h
    exact ⟨[], [], [], [], rfl, rfl, rfl, rfl, fun x t => by rw [total_nil]; ring⟩
  | cons a l ih =>
    obtain ⟨c, ds, hc, hd, rfl⟩ := blocks_cons h
    obtain ⟨u1, u2, u3, u4, h1, h2, h3, h4, hu⟩ := ih hd
    obtain ⟨c1, ds1, hc1, hd1, rfl⟩ := blocks_cons hc
    obtain ⟨c2, ds2, hc2, hd2, rfl⟩ := blocks_cons hd1
    obtain ⟨c3, ds3, hc3, hd3, rfl⟩ := blocks_cons hd2
    obtain ⟨c4, ds4, hc4, hd4, rfl⟩ := blocks_cons hd3
    obtain rfl := blocks_nil hd4
    have step : ∀ (f : α → Except Err (List (Coupling P (Key O K) F))) (c u : List (Coupling P (Key O K) F)),
        f a = .ok c → blocks (l.map f) = .ok u → blocks ((a :: l).map f) = .ok (c ++ u) := by
      intro f c u hc hu
      rw [List.map_cons]
      unfold blocks
      rw [hc, hu]
      rfl
    refine ⟨c1 ++ u1, c2 ++ u2, c3 ++ u3, c4 ++ u4, step f1 _ _ hc1 h1, step f2 _ _ hc2 h2, step f3 _ _ hc3 h3,
      step f4 _ _ hc4 h4, fun x t => ?_⟩
    simp only [total_append, hu, total_nil]
    ring

theorem blocks_empty {α : Type} {l : List α} {f : α → Except Err (List (Coupling P (Key O K) F))}
    {cs : List (Coupling P (Key O K) F)} (h : blocks (l.map f) = .ok cs) (hf : ∀ a ∈ l, f a = .ok []) (x : P × Key O K → F)
    (t : P × Key O K) : total cs x t = 0 := by
  rw [blocks_map h (g := fun _ => 0)]
  · simp
  · intro a ha ds hd
    rw [hf a ha] at hd
    injection hd with hd
    rw [← hd, total_nil]

/-- the light at a port is the light of the keys in the list -/
theorem light_mem (e : K → F) {ks outs : List (OKey O K)} (hn : ks.Nodup) (ho : outs.Nodup) (hks : ∀ k ∈ ks, k ∈ outs)
    (y : OKey O K → F) (md : O × Pol) (q : Quantum) :
    light e outs (fun k => if k ∈ ks then y k else 0) md q = light e ks y md q := by
  unfold light
  symm
  rw [← Finset.sum_subset (fun k hk => List.mem_toFinset.2 (hks k (List.mem_toFinset.1 hk)))]
  · apply Finset.sum_congr rfl
    intro k hk
    dsimp only
    rw [if_pos (List.mem_toFinset.1 hk)]
  · intro k _ hk
    dsimp only
    rw [if_neg (fun h => hk (List.mem_toFinset.2 h)), zero_mul, ite_self]

theorem light_mul (e : K → F) (ks : List (OKey O K)) (y : OKey O K → F) (c : F) (md : O × Pol) (q : Quantum) :
    light e ks (fun k => c * y k) md q = c * light e ks y md q := by
  unfold light
  rw [Finset.mul_sum]
  apply Finset.sum_congr rfl
  intro k _
  split_ifs
  · ring
  · ring

namespace Mirror
variable (m : Mirror P F)

/-- The sign of the phase for the lowering and the raising fields. -/
def _root_.Optics.Quantum.sign (q : Quantum) : F := q.pick 1 (-1)

/-- The sum that the motion of the mirror contributes. -/
def motion (e : K → F) (x : P × Key O K → F) : F :=
  ((env.skeys m.Zd).map (fun lk => if -lk = lk then 0 else x (sn m.Zd lk) * e lk)).sum

theorem reflection_light {e : K → F} (he : ∀ k l, e (k + l) = e k * e l) {p pto : Port P} {q : P} {g test s : F}
    (hZ : Balanced (env.skeys m.Zd)) (hF : Balanced (env.skeys m.ZF)) (hS : Sidebands env p.i q m.Zd)
    {cs : List (Coupling P (Key O K) F)}
    (h : blocks ((env.okeys p.i).map (fun k => (m.reflection env p pto g test s k).fill env k)) = .ok cs)
    (x : P × Key O K → F) (md : O × Pol) (Q : Quantum) :
    light e (env.okeys q) (fun k => total cs x (on q k)) md Q = if pto.o = q then g * m.turn env test Q *
      light e (env.okeys p.i) (fun k => x (on p.i k)) md Q *
      (1 + s * Q.sign * env.i * (-2 * m.coupling env * env.pi * 2 * env.iwavelen_m md.1) * m.motion env e x) else 0 := by
  by_cases hq : pto.o = q
  · subst hq
    rw [if_pos rfl]
    have key := keys_light env he (outs := env.okeys pto.o) hS.1 (fun k => m.reflection env p pto g test s k) p.i
      (fun _ => rfl) (fun _ => rfl) (fun _ => rfl) hZ (by rintro _ r ⟨⟩; exact hF) true (fun _ => rfl) hS.2.2.1
      (hS.shifted env hZ) h x md Q (std := g * m.turn env test Q)
      (cl := s * Q.sign * env.i * (-2 * m.coupling env * env.pi * 2 * env.iwavelen_m md.1))
      (fun k _ => reflection_std env m p pto g test s k Q)
      (by
        rintro k rfl
        unfold Quantum.sign Quantum.pick reflection
        cases Q
        · simp only [mul_one]
        · simp only [mul_neg, mul_one, neg_mul])
    rw [key, if_pos rfl]
    rfl
  · rw [if_neg hq]
    have : ∀ k, total cs x (on q k) = 0 := by
      intro k
      rw [blocks_map h (g := fun _ => 0)]
      · simp
      · intro j _ ds hds
        exact fill_elsewhere env _ j hds (by rintro _ ⟨⟩; exact hZ) (by rintro _ ⟨⟩; exact hF) x (by rintro _ ⟨⟩; exact hq) k
    simp only [this]
    exact light_zero e _ md Q

/-- the parts of the couplings of one port -/
theorem at_port_parts {p tp rp bp : Port P} {s tv rv bv : F} (hs : Dict.get? m.mod_sign_map p = some s)
    (ht : Dict.get? (m.tmap env) p = some (tp, tv)) (hr : Dict.get? (m.rmap env) p = some (rp, rv))
    (hbs : Dict.get? (m.rBSmap env) p = some (bp, bv)) (hl : Dict.get? (m.lmap env) p = none)
    {cs : List (Coupling P (Key O K) F)} (h : m.at_port env p = .ok cs) :
    ∃ c1 c3 c4, (∀ x t, total cs x t = total c1 x t + total c3 x t + total c4 x t) ∧
      (c1 = if m.T ≠ 0 then (env.okeys p.i).map (fun k => .edge (on p.i k) (on tp.o k) tv) else []) ∧
      (if m.R ≠ 0 then blocks ((env.okeys p.i).map (fun k => (m.reflection env p rp rv m.phase_rad s k).fill env k))
        else .ok []) = .ok c3 ∧
      (if m.R_backscatter ≠ 0 then blocks ((env.okeys p.i).map (fun k =>
        (m.reflection env p bp bv m.backscatter_phase_rad s k).fill env k)) else .ok []) = .ok c4 := by
  unfold at_port at h
  rw [get_ok hs] at h
  replace h : blocks ((env.okeys p.i).map (fun k =>
    blocks [m.transmit env p k, .ok (m.lose env p k), m.reflect env p s k, m.backscatter env p s k])) = .ok cs := h
  obtain ⟨c1, c2, c3, c4, h1, h2, h3, h4, htot⟩ := blocks_quad h
  have hc2 : ∀ x t, total c2 x t = 0 := by
    apply blocks_empty h2
    intro k _
    unfold lose
    rw [hl]
    split_ifs <;> rfl
  have hnil : ∀ (c : List (Coupling P (Key O K) F)) (f : OKey O K → Except Err (List (Coupling P (Key O K) F))),
      blocks ((env.okeys p.i).map f) = .ok c → (∀ k, f k = .ok []) → c = [] := by
    intro c f
    generalize env.okeys p.i = l
    intro hc hf
    induction l generalizing c with
    | nil => exact blocks_nil hc
    | cons a l ih =>
      obtain ⟨u, v, hu, hv, rfl⟩ := blocks_cons hc
      rw [hf a] at hu
      injection hu with hu
      rw [← hu, ih v hv, List.append_nil]
  have hmap : ∀ (c : List (Coupling P (Key O K) F)) (f : OKey O K → Except Err (List (Coupling P (Key O K) F)))
      (g : OKey O K → Coupling P (Key O K) F), blocks ((env.okeys p.i).map f) = .ok c → (∀ k, f k = .ok [g k]) →
      c = (env.okeys p.i).map g := by
    intro c f g
    generalize env.okeys p.i = l
    intro hc hf
    induction l generalizing c with
    | nil => exact blocks_nil hc
    | cons a l ih =>
      obtain ⟨u, v, hu, hv, rfl⟩ := blocks_cons hc
      rw [hf a] at hu
      injection hu with hu
      rw [← hu, ih v hv]
      rfl
  refine ⟨c1, c3, c4, fun x t => by rw [htot, hc2, add_zero], ?_, ?_, ?_⟩
  · by_cases hT : m.T = 0
    · rw [if_neg (not_not.2 hT)]
      refine hnil c1 _ h1 (fun k => ?_)
      unfold transmit
      rw [if_neg (not_not.2 hT)]
    · rw [if_pos hT]
      have hf : ∀ k, m.transmit env p k = .ok [.edge (on p.i k) (on tp.o k) tv] := by
        intro k
        unfold transmit
        rw [if_pos hT, get_ok ht]
        rfl
      exact hmap c1 _ _ h1 hf
  · by_cases hR : m.R = 0
    · rw [if_neg (not_not.2 hR)]
      rw [hnil c3 _ h3 (fun k => by unfold reflect; rw [get_ok hr, ]; exact if_neg (not_not.2 hR))]
    · rw [if_pos hR, ← h3]
      congr 1
      apply List.map_congr_left
      intro k _
      unfold reflect
      rw [get_ok hr]
      exact (if_pos hR).symm
  · by_cases hB : m.R_backscatter = 0
    · rw [if_neg (not_not.2 hB)]
      rw [hnil c4 _ h4 (fun k => by unfold backscatter; exact if_neg (not_not.2 hB))]
    · rw [if_pos hB, ← h4]
      congr 1
      apply List.map_congr_left
      intro k _
      unfold backscatter
      rw [if_pos hB, get_ok hbs]
      rfl

/-- What one port sends to the light at a node. -/
theorem at_port_light {e : K → F} (he : ∀ k l, e (k + l) = e k * e l) {p tp rp bp : Port P} {s tv rv bv : F}
    (hs : Dict.get? m.mod_sign_map p = some s)
    (ht : Dict.get? (m.tmap env) p = some (tp, tv)) (hr : Dict.get? (m.rmap env) p = some (rp, rv))
    (hbs : Dict.get? (m.rBSmap env) p = some (bp, bv)) (hl : Dict.get? (m.lmap env) p = none)
    (hT : m.T = 0 → tv = 0) (hR : m.R = 0 → rv = 0) (hB : m.R_backscatter = 0 → bv = 0)
    (hZ : Balanced (env.skeys m.Zd)) (hF : Balanced (env.skeys m.ZF)) {q : P} (hS : Sidebands env p.i q m.Zd)
    {cs : List (Coupling P (Key O K) F)} (h : m.at_port env p = .ok cs) (x : P × Key O K → F) (md : O × Pol) (Q : Quantum)
    {A L : F} (hA : A = s * Q.sign * env.i * (-2 * m.coupling env * env.pi * 2 * env.iwavelen_m md.1) * m.motion env e x)
    (hL : L = light e (env.okeys p.i) (fun k => x (on p.i k)) md Q) :
    light e (env.okeys q) (fun k => total cs x (on q k)) md Q =
      (if tp.o = q then tv * L else 0) + (if rp.o = q then rv * m.turn env m.phase_rad Q * L * (1 + A) else 0) +
      (if bp.o = q then bv * m.turn env m.backscatter_phase_rad Q * L * (1 + A) else 0) := by
  obtain ⟨c1, c3, c4, htot, h1, h3, h4⟩ := at_port_parts env m hs ht hr hbs hl h
  simp only [htot]
  rw [light_add, light_add]
  congr 1
  · congr 1
    · by_cases hT0 : m.T = 0
      · rw [h1, if_neg (not_not.2 hT0), hT hT0, zero_mul, ite_self]
        exact light_zero e _ md Q
      · rw [h1, if_pos hT0]
        simp only [edges_total hS.1]
        by_cases hq : tp.o = q
        · simp only [hq, true_and, if_true]
          rw [light_mem e hS.1 hS.2.1 hS.2.2.1, light_mul, hL]
        · simp only [hq, false_and, if_false]
          exact light_zero e _ md Q
    · by_cases hR0 : m.R = 0
      · rw [if_neg (not_not.2 hR0)] at h3
        injection h3 with h3
        rw [← h3, hR hR0, zero_mul, zero_mul, zero_mul, ite_self]
        exact light_zero e _ md Q
      · rw [if_pos hR0] at h3
        rw [reflection_light env m he hZ hF hS h3, hA, hL]
  · by_cases hB0 : m.R_backscatter = 0
    · rw [if_neg (not_not.2 hB0)] at h4
      injection h4 with h4
      rw [← h4, hB hB0, zero_mul, zero_mul, zero_mul, ite_self]
      exact light_zero e _ md Q
    · rw [if_pos hB0] at h4
      rw [reflection_light env m he hZ hF hS h4, hA, hL]

/-- What one port adds to the force. -/
theorem at_port_force {p tp rp bp : Port P} {s tv rv bv : F} (hs : Dict.get? m.mod_sign_map p = some s)
    (ht : Dict.get? (m.tmap env) p = some (tp, tv)) (hr : Dict.get? (m.rmap env) p = some (rp, rv))
    (hbs : Dict.get? (m.rBSmap env) p = some (bp, bv)) (hl : Dict.get? (m.lmap env) p = none)
    (hR : m.R = 0 → rv = 0) (hB : m.R_backscatter = 0 → bv = 0)
    (hZ : Balanced (env.skeys m.Zd)) (hF : Balanced (env.skeys m.ZF)) (hn : (env.okeys p.i).Nodup)
    (hconj : ∀ k ∈ env.okeys p.i, k.conj ∈ env.okeys p.i) (hrej : ∀ k ∈ env.okeys p.i, env.reject k.cls = false)
    {cs : List (Coupling P (Key O K) F)} (h : m.at_port env p = .ok cs) (x : P × Key O K → F)
    (hx : ∀ k, k ∉ env.okeys p.i → x (on p.i k) = 0) {δ : K} (hδ : δ ∈ env.skeys m.ZF) {A : F}
    (hA : A = s * (-2 * m.coupling env) / env.c_m_s / (if -δ = δ then 2 else 1) *
      beat (env.okeys p.i) (fun k => x (on p.i k)) δ) :
    total cs x (sn m.ZF δ) = A * (rv * (m.turn env m.phase_rad .lower + m.turn env m.phase_rad .raise) +
      bv * (m.turn env m.backscatter_phase_rad .lower + m.turn env m.backscatter_phase_rad .raise)) := by
  obtain ⟨c1, c3, c4, htot, h1, h3, h4⟩ := at_port_parts env m hs ht hr hbs hl h
  have e1 : total c1 x (sn m.ZF δ) = 0 := by
    rw [h1]
    split_ifs
    · exact edges_sig _ _ _ _ x _ _
    · exact total_nil x _
  have hfill : ∀ (pto : Port P) (g test : F) (c : List (Coupling P (Key O K) F)),
      blocks ((env.okeys p.i).map (fun k => (m.reflection env p pto g test s k).fill env k)) = .ok c →
      total c x (sn m.ZF δ) = A * (g * (m.turn env test .lower + m.turn env test .raise)) := by
    intro pto g test c hc
    rw [detector_total env (env.okeys p.i) (fun k => m.reflection env p pto g test s k) p.i m.ZF (fun _ => rfl) hn hconj hrej
      (fun _ => rfl) (by rintro _ q ⟨⟩; exact hZ) hF hc x hx hδ
      (cL := g * m.turn env test .lower * (s * (-2 * m.coupling env) / env.c_m_s))
      (cR := g * m.turn env test .raise * (s * (-2 * m.coupling env) / env.c_m_s))
      (fun k => by
        have := reflection_std env m p pto g test s k .lower
        rw [← this]; rfl)
      (fun k => by
        have := reflection_std env m p pto g test s k .raise
        rw [← this]; rfl), hA]
    ring
  have e3 : total c3 x (sn m.ZF δ) = A * (rv * (m.turn env m.phase_rad .lower + m.turn env m.phase_rad .raise)) := by
    by_cases hR0 : m.R = 0
    · rw [if_neg (not_not.2 hR0)] at h3
      injection h3 with h3
      rw [← h3, hR hR0, zero_mul, mul_zero, total_nil]
    · rw [if_pos hR0] at h3
      exact hfill _ _ _ _ h3
  have e4 : total c4 x (sn m.ZF δ) =
      A * (bv * (m.turn env m.backscatter_phase_rad .lower + m.turn env m.backscatter_phase_rad .raise)) := by
    by_cases hB0 : m.R_backscatter = 0
    · rw [if_neg (not_not.2 hB0)] at h4
      injection h4 with h4
      rw [← h4, hB hB0, zero_mul, mul_zero, total_nil]
    · rw [if_pos hB0] at h4
      exact hfill _ _ _ _ h4
  rw [htot, e1, e3, e4]
  ring

/-! ## the four ports -/

variable {m}

/-- what a mirror at an angle looks up for one of its ports -/
theorem lookups (hM : m.Mounted env) (hAOI : m.AOI_deg ≠ 0) :
    ∀ v ∈ [(MPort.FrA, MPort.BkA, MPort.FrB, (1 : F), m.rBS env), (.BkA, .FrA, .BkB, -1, -m.rBS env),
      (.FrB, .BkB, .FrA, 1, -m.rBS env), (.BkB, .FrB, .BkA, -1, m.rBS env)],
    Dict.get? m.mod_sign_map (m.port v.1) = some v.2.2.2.1 ∧
    Dict.get? (m.tmap env) (m.port v.1) = some (m.port v.2.1, m.t env) ∧
    Dict.get? (m.rmap env) (m.port v.1) = some (m.port v.2.2.1, v.2.2.2.1 * m.r env) ∧
    Dict.get? (m.rBSmap env) (m.port v.1) = some (m.port v.1, v.2.2.2.2) ∧
    Dict.get? (m.lmap env) (m.port v.1) = none := by
  have p4 : ∀ a b, m.at4 a b = m.port a := fun a b => if_neg hAOI
  have n : ∀ {β : Type} {a b : MPort} (u v : β), a ≠ b → (if m.port a = m.port b then u else v) = v :=
    fun u v hab => if_neg (hM.ne env hab)
  intro v hv
  simp only [List.mem_cons, List.not_mem_nil, or_false] at hv
  unfold mod_sign_map tmap rmap rBSmap lmap FrA FrB BkA BkB LFrA LFrB LBkA LBkB
  simp only [get4, p4]
  rcases hv with rfl | rfl | rfl | rfl <;>
    simp (discharger := decide) only [n, if_true, one_mul, neg_one_mul, and_self]

/-- the couplings of a mirror at an angle, port by port -/
theorem parts (hAOI : m.AOI_deg ≠ 0) {cs : List (Coupling P (Key O K) F)} (h : m.setup env = .ok cs) :
    ∃ c1 c2 c3 c4 c5, m.at_port env (m.port .FrA) = .ok c1 ∧ m.at_port env (m.port .BkA) = .ok c2 ∧
      m.at_port env (m.port .FrB) = .ok c3 ∧ m.at_port env (m.port .BkB) = .ok c4 ∧ m.loss_couplings env = .ok c5 ∧
      ∀ x t, total cs x t = total c1 x t + total c2 x t + total c3 x t + total c4 x t + total c5 x t := by
  have p4 : ∀ a b, m.at4 a b = m.port a := fun a b => if_neg hAOI
  unfold setup at h
  have hpo : m.ports_optical = [m.port .FrA, m.port .BkA, m.port .FrB, m.port .BkB] := by
    unfold ports_optical FrA BkA FrB BkB
    rw [if_neg hAOI, p4, p4, p4, p4]
  rw [hpo] at h
  obtain ⟨c1, d1, h1, hd1, rfl⟩ := blocks_cons h
  obtain ⟨c2, d2, h2, hd2, rfl⟩ := blocks_cons hd1
  obtain ⟨c3, d3, h3, hd3, rfl⟩ := blocks_cons hd2
  obtain ⟨c4, d4, h4, hd4, rfl⟩ := blocks_cons hd3
  obtain ⟨c5, d5, h5, hd5, rfl⟩ := blocks_cons hd4
  obtain rfl := blocks_nil hd5
  refine ⟨c1, c2, c3, c4, c5, h1, h2, h3, h4, h5, fun x t => ?_⟩
  simp only [total_append, total_nil]
  ring

/-- what the loss ports of a mirror at an angle send -/
theorem loss4 (hM : m.Mounted env) (hAOI : m.AOI_deg ≠ 0) {cs : List (Coupling P (Key O K) F)}
    (h : m.loss_couplings env = .ok cs) :
    ∃ c : MPort → List (Coupling P (Key O K) F), (∀ x t, total cs x t =
        ([MPort.LFrA, .LBkA, .LFrB, .LBkB].map (fun a => total (c a) x t)).sum) ∧
      ∀ v ∈ [(MPort.LFrA, MPort.FrA), (.LBkA, .BkA), (.LFrB, .FrB), (.LBkB, .BkB)],
        c v.1 = if m.has_loss = true then (env.okeys (m.port v.1).i).map (fun k =>
          .edge (on (m.port v.1).i k) (on (m.port v.2).o k) (m.l env)) else [] := by
  have p4 : ∀ a b, m.at4 a b = m.port a := fun a b => if_neg hAOI
  have n : ∀ {β : Type} {a b : MPort} (u v : β), a ≠ b → (if m.port a = m.port b then u else v) = v :=
    fun u v hab => if_neg (hM.ne env hab)
  have hget : ∀ v ∈ [(MPort.LFrA, MPort.FrA), (.LBkA, .BkA), (.LFrB, .FrB), (.LBkB, .BkB)],
      Dict.get? (m.lmap env) (m.port v.1) = some (m.port v.2, m.l env) := by
    intro v hv
    simp only [List.mem_cons, List.not_mem_nil, or_false] at hv
    unfold lmap FrA FrB BkA BkB LFrA LFrB LBkA LBkB
    simp only [get4, p4]
    rcases hv with rfl | rfl | rfl | rfl <;> simp (discharger := decide) only [n, if_true]
  have hpl : m.ports_optical_loss = [m.port .LFrA, m.port .LBkA, m.port .LFrB, m.port .LBkB] := by
    unfold ports_optical_loss LFrA LBkA LFrB LBkB
    rw [if_neg hAOI, p4, p4, p4, p4]
  unfold loss_couplings at h
  rw [hpl] at h
  by_cases hl : m.has_loss = true
  · rw [if_pos hl] at h
    obtain ⟨c1, d1, h1, hd1, rfl⟩ := blocks_cons h
    obtain ⟨c2, d2, h2, hd2, rfl⟩ := blocks_cons hd1
    obtain ⟨c3, d3, h3, hd3, rfl⟩ := blocks_cons hd2
    obtain ⟨c4, d4, h4, hd4, rfl⟩ := blocks_cons hd3
    obtain rfl := blocks_nil hd4
    have g1 : Dict.get? (m.lmap env) (m.port .LFrA) = some (m.port .FrA, m.l env) := hget (.LFrA, .FrA) (by simp)
    dsimp only at h1
    rw [g1] at h1
    have g2 : Dict.get? (m.lmap env) (m.port .LBkA) = some (m.port .BkA, m.l env) := hget (.LBkA, .BkA) (by simp)
    dsimp only at h2
    rw [g2] at h2
    have g3 : Dict.get? (m.lmap env) (m.port .LFrB) = some (m.port .FrB, m.l env) := hget (.LFrB, .FrB) (by simp)
    dsimp only at h3
    rw [g3] at h3
    have g4 : Dict.get? (m.lmap env) (m.port .LBkB) = some (m.port .BkB, m.l env) := hget (.LBkB, .BkB) (by simp)
    dsimp only at h4
    rw [g4] at h4
    injection h1 with h1
    injection h2 with h2
    injection h3 with h3
    injection h4 with h4
    refine ⟨fun a => match a with | .LFrA => c1 | .LBkA => c2 | .LFrB => c3 | .LBkB => c4 | _ => [], fun x t => ?_, ?_⟩
    · simp only [total_append, total_nil, List.map_cons, List.map_nil, List.sum_cons, List.sum_nil]
    · intro v hv
      rw [if_pos hl]
      simp only [List.mem_cons, List.not_mem_nil, or_false] at hv
      rcases hv with rfl | rfl | rfl | rfl
      · exact h1.symm
      · exact h2.symm
      · exact h3.symm
      · exact h4.symm
  · rw [if_neg hl] at h
    injection h with h
    refine ⟨fun _ => [], fun x t => ?_, fun v _ => (if_neg hl).symm⟩
    rw [← h]
    simp [total_nil]

/-- **C69.**  The light that leaves a moving mirror at an angle.  Each output `a` gets the light transmitted from `b`, the
light reflected from `c` and its own backscatter, both times `1 ± i φ` with the phase `φ = -8π cos(θ) z / λ`, where `z` is the
alternating part of the displacement, and the vacuum of its loss port `d`.  The sign is `σ` for the lowering fields
(opposite on the two sides of the mirror) and `-σ` for the raising fields.  That is twice the phase `4π cos(θ) z / λ` of the
light reflected by a mirror displaced by `z`. -/
theorem C69_motion {e : K → F} (he : ∀ k l, e (k + l) = e k * e l) (htors : ∀ k : K, -k = k → k = 0) (h2 : (2 : F) ≠ 0)
    (hM : m.Mounted env) (hAOI : m.AOI_deg ≠ 0)
    (h45 : m.AOI_deg = 45 → 1 / env.sqrt 2 = env.cos (m.AOI_deg * env.pi / 180))
    (hS : ∀ a b, Sidebands env (m.port a).i (m.port b).o m.Zd) {cs : List (Coupling P (Key O K) F)}
    (h : m.setup env = .ok cs) (x : P × Key O K → F) (md : O × Pol) (Q : Quantum) {L : MPort → F}
    (hL : ∀ a, L a = light e (env.okeys (m.port a).i) (fun k => x ((m.port a).i, .opt k)) md Q) {z φ : F}
    (hz : z = wave e (env.skeys m.Zd) (fun lk => if lk = 0 then 0 else x (m.Zd, .sig lk)))
    (hφ : φ = -8 * env.pi * env.cos (m.AOI_deg * env.pi / 180) * env.iwavelen_m md.1 * z) :
    ∀ v ∈ [(MPort.FrA, MPort.BkA, MPort.FrB, MPort.LFrA, (1 : F), (1 : F)), (.FrB, .BkB, .FrA, .LFrB, 1, -1),
      (.BkA, .FrA, .BkB, .LBkA, -1, -1), (.BkB, .FrB, .BkA, .LBkB, -1, 1)],
    light e (env.okeys (m.port v.1).o) (fun k => (cs.map (fun c => c.into x ((m.port v.1).o, .opt k))).sum) md Q =
      m.t env * L v.2.1 +
      v.2.2.2.2.1 * m.r env * m.turn env m.phase_rad Q * L v.2.2.1 *
        (1 + v.2.2.2.2.1 * Q.pick 1 (-1) * env.i * φ) +
      v.2.2.2.2.2 * m.rBS env * m.turn env m.backscatter_phase_rad Q * L v.1 *
        (1 + v.2.2.2.2.1 * Q.pick 1 (-1) * env.i * φ) +
      m.l env * L v.2.2.2.1 := by
  have no := fun {a b : MPort} (hab : a ≠ b) => hM.ne_o env hab
  have zz : ∀ {a b : MPort} (v : F), a ≠ b → (if (m.port a).o = (m.port b).o then v else 0) = 0 := fun v hab => if_neg (no hab)
  obtain ⟨c1, c2, c3, c4, c5, h1, h2', h3, h4, h5, htot⟩ := parts env hAOI h
  obtain ⟨d, hd, hdl⟩ := loss4 env hM hAOI h5
  have hcoup : m.coupling env = env.cos (m.AOI_deg * env.pi / 180) := by
    unfold coupling
    rw [if_pos hAOI]
    split_ifs with h
    · exact h45 h
    · rfl
  have hmot : m.motion env e x = 2 * z := by
    rw [hz, ← drive_wave e htors]
    unfold motion
    field_simp
  have hsgn : ∀ σ : F, σ * Q.sign * env.i * (-2 * m.coupling env * env.pi * 2 * env.iwavelen_m md.1) * m.motion env e x =
      σ * Q.pick 1 (-1) * env.i * φ := by
    intro σ
    rw [hmot, hφ, hcoup]
    unfold Quantum.sign
    ring
  have l1 := lookups env hM hAOI (.FrA, .BkA, .FrB, 1, m.rBS env) (by simp)
  have l2 := lookups env hM hAOI (.BkA, .FrA, .BkB, -1, -m.rBS env) (by simp)
  have l3 := lookups env hM hAOI (.FrB, .BkB, .FrA, 1, -m.rBS env) (by simp)
  have l4 := lookups env hM hAOI (.BkB, .FrB, .BkA, -1, m.rBS env) (by simp)
  have hR0 : ∀ σ : F, m.R = 0 → σ * m.r env = 0 := fun σ h => by rw [hM.r0 env h, mul_zero]
  have a1 := fun b => at_port_light env m he (q := (m.port b).o) l1.1 l1.2.1 l1.2.2.1 l1.2.2.2.1 l1.2.2.2.2 (hM.t0 env) (hR0 _) (hM.b0 env) hM.Zd hM.ZF
    (hS _ b) h1 x md Q (hsgn _).symm (hL .FrA)
  have a2 := fun b => at_port_light env m he (q := (m.port b).o) l2.1 l2.2.1 l2.2.2.1 l2.2.2.2.1 l2.2.2.2.2 (hM.t0 env) (hR0 _)
    (fun h => by rw [hM.b0 env h, neg_zero]) hM.Zd hM.ZF (hS _ b) h2' x md Q (hsgn _).symm (hL .BkA)
  have a3 := fun b => at_port_light env m he (q := (m.port b).o) l3.1 l3.2.1 l3.2.2.1 l3.2.2.2.1 l3.2.2.2.2 (hM.t0 env) (hR0 _)
    (fun h => by rw [hM.b0 env h, neg_zero]) hM.Zd hM.ZF (hS _ b) h3 x md Q (hsgn _).symm (hL .FrB)
  have a4 := fun b => at_port_light env m he (q := (m.port b).o) l4.1 l4.2.1 l4.2.2.1 l4.2.2.2.1 l4.2.2.2.2 (hM.t0 env) (hR0 _)
    (hM.b0 env) hM.Zd hM.ZF (hS _ b) h4 x md Q (hsgn _).symm (hL .BkB)
  have a5 : ∀ v ∈ [(MPort.LFrA, MPort.FrA), (.LBkA, .BkA), (.LFrB, .FrB), (.LBkB, .BkB)], ∀ b,
      light e (env.okeys (m.port b).o) (fun k => total (d v.1) x (on (m.port b).o k)) md Q =
        if (m.port v.2).o = (m.port b).o then m.l env * L v.1 else 0 := by
    intro v hv b
    rw [hdl v hv]
    by_cases hl : m.has_loss = true
    · simp only [if_pos hl]
      simp only [edges_total (hM.nodup v.1)]
      by_cases hq : (m.port v.2).o = (m.port b).o
      · simp only [hq, true_and, if_true]
        rw [light_mem e (hS v.1 b).1 (hS v.1 b).2.1 (hS v.1 b).2.2.1, light_mul, hL]
      · simp only [hq, false_and, if_false]
        exact light_zero e _ md Q
    · simp only [if_neg hl]
      rw [hM.l0 env (by simpa using hl), zero_mul, ite_self]
      exact light_zero e _ md Q
  have b1 := a5 (.LFrA, .FrA) (by simp)
  have b2 := a5 (.LBkA, .BkA) (by simp)
  have b3 := a5 (.LFrB, .FrB) (by simp)
  have b4 := a5 (.LBkB, .BkB) (by simp)
  have hsum : ∀ b, light e (env.okeys (m.port b).o)
      (fun k => (cs.map (fun c => c.into x ((m.port b).o, .opt k))).sum) md Q =
      light e (env.okeys (m.port b).o) (fun k => total c1 x (on (m.port b).o k)) md Q +
      light e (env.okeys (m.port b).o) (fun k => total c2 x (on (m.port b).o k)) md Q +
      light e (env.okeys (m.port b).o) (fun k => total c3 x (on (m.port b).o k)) md Q +
      light e (env.okeys (m.port b).o) (fun k => total c4 x (on (m.port b).o k)) md Q +
      light e (env.okeys (m.port b).o) (fun k => total (d .LFrA) x (on (m.port b).o k)) md Q +
      light e (env.okeys (m.port b).o) (fun k => total (d .LBkA) x (on (m.port b).o k)) md Q +
      light e (env.okeys (m.port b).o) (fun k => total (d .LFrB) x (on (m.port b).o k)) md Q +
      light e (env.okeys (m.port b).o) (fun k => total (d .LBkB) x (on (m.port b).o k)) md Q := by
    intro b
    simp only [← light_add]
    apply light_congr
    intro k _ _ _
    refine (htot x (on (m.port b).o k)).trans ?_
    rw [hd]
    simp only [List.map_cons, List.map_nil, List.sum_cons, List.sum_nil]
    ring
  intro v hv
  simp only [List.mem_cons, List.not_mem_nil, or_false] at hv
  rcases hv with rfl | rfl | rfl | rfl <;>
  · rw [hsum, a1, a2, a3, a4, b1, b2, b3, b4]
    simp (discharger := decide) only [zz, if_true]
    ring

/-! ## the force -/

/-- **C70.**  The force of the light on a mirror at an angle, at a frequency `δ`, in terms of the products of the fields of
each port at that frequency (`beat`, half of the power for `δ ≠ 0`, see C65).  It is proportional to the amplitude of the
reflection instead of the reflectivity, and the light of the back side pushes as the light of the front side does. -/
theorem C70_force (htors : ∀ k : K, -k = k → k = 0) (hM : m.Mounted env) (hAOI : m.AOI_deg ≠ 0)
    (h45 : m.AOI_deg = 45 → 1 / env.sqrt 2 = env.cos (m.AOI_deg * env.pi / 180))
    (hconj : ∀ a, ∀ k ∈ env.okeys (m.port a).i, ({ k with q := k.q.conj } : OKey O K) ∈ env.okeys (m.port a).i)
    (hrej : ∀ a, ∀ k ∈ env.okeys (m.port a).i, env.reject k.cls = false)
    {cs : List (Coupling P (Key O K) F)} (h : m.setup env = .ok cs) (x : P × Key O K → F)
    (hx : ∀ a k, k ∉ env.okeys (m.port a).i → x ((m.port a).i, .opt k) = 0) {δ : K} (hδ : δ ∈ env.skeys m.ZF)
    {B : MPort → F} (hB : ∀ a, B a = beat (env.okeys (m.port a).i) (fun k => x ((m.port a).i, .opt k)) δ) :
    (cs.map (fun c => c.into x (m.ZF, .sig δ))).sum =
      -2 * env.cos (m.AOI_deg * env.pi / 180) / env.c_m_s / (if δ = 0 then 2 else 1) *
      (m.r env * (m.turn env m.phase_rad .lower + m.turn env m.phase_rad .raise) * (B .FrA + B .FrB + B .BkA + B .BkB) +
        m.rBS env * (m.turn env m.backscatter_phase_rad .lower + m.turn env m.backscatter_phase_rad .raise) *
          (B .FrA - B .FrB + B .BkA - B .BkB)) := by
  obtain ⟨c1, c2, c3, c4, c5, h1, h2, h3, h4, h5, htot⟩ := parts env hAOI h
  obtain ⟨d, hd, hdl⟩ := loss4 env hM hAOI h5
  have hcoup : m.coupling env = env.cos (m.AOI_deg * env.pi / 180) := by
    unfold coupling
    rw [if_pos hAOI]
    split_ifs with h
    · exact h45 h
    · rfl
  have hself : (if -δ = δ then 2 else 1 : F) = if δ = 0 then 2 else 1 := by
    by_cases hd : δ = 0
    · rw [if_pos hd, if_pos (by rw [hd, neg_zero])]
    · rw [if_neg hd, if_neg (fun h => hd (htors δ h))]
  have e5 : total c5 x (sn m.ZF δ) = 0 := by
    rw [hd]
    have hz : ∀ v ∈ [(MPort.LFrA, MPort.FrA), (.LBkA, .BkA), (.LFrB, .FrB), (.LBkB, .BkB)],
        total (d v.1) x (sn m.ZF δ) = 0 := by
      intro v hv
      rw [hdl v hv]
      split_ifs
      · exact edges_sig _ _ _ _ x _ _
      · exact total_nil x _
    simp only [List.map_cons, List.map_nil, List.sum_cons, List.sum_nil]
    have z1 : total (d .LFrA) x (sn m.ZF δ) = 0 := hz (.LFrA, .FrA) (by simp)
    have z2 : total (d .LBkA) x (sn m.ZF δ) = 0 := hz (.LBkA, .BkA) (by simp)
    have z3 : total (d .LFrB) x (sn m.ZF δ) = 0 := hz (.LFrB, .FrB) (by simp)
    have z4 : total (d .LBkB) x (sn m.ZF δ) = 0 := hz (.LBkB, .BkB) (by simp)
    rw [z1, z2, z3, z4]
    simp
  have l1 := lookups env hM hAOI (.FrA, .BkA, .FrB, 1, m.rBS env) (by simp)
  have l2 := lookups env hM hAOI (.BkA, .FrA, .BkB, -1, -m.rBS env) (by simp)
  have l3 := lookups env hM hAOI (.FrB, .BkB, .FrA, 1, -m.rBS env) (by simp)
  have l4 := lookups env hM hAOI (.BkB, .FrB, .BkA, -1, m.rBS env) (by simp)
  have hR0 : ∀ σ : F, m.R = 0 → σ * m.r env = 0 := fun σ h => by rw [hM.r0 env h, mul_zero]
  have a1 := at_port_force env m l1.1 l1.2.1 l1.2.2.1 l1.2.2.2.1 l1.2.2.2.2 (hR0 _) (hM.b0 env) hM.Zd hM.ZF
    (hM.nodup _) (hconj _) (hrej _) h1 x (hx _) hδ rfl
  have a2 := at_port_force env m l2.1 l2.2.1 l2.2.2.1 l2.2.2.2.1 l2.2.2.2.2 (hR0 _)
    (fun h => by rw [hM.b0 env h, neg_zero]) hM.Zd hM.ZF (hM.nodup _) (hconj _) (hrej _) h2 x (hx _) hδ rfl
  have a3 := at_port_force env m l3.1 l3.2.1 l3.2.2.1 l3.2.2.2.1 l3.2.2.2.2 (hR0 _)
    (fun h => by rw [hM.b0 env h, neg_zero]) hM.Zd hM.ZF (hM.nodup _) (hconj _) (hrej _) h3 x (hx _) hδ rfl
  have a4 := at_port_force env m l4.1 l4.2.1 l4.2.2.1 l4.2.2.2.1 l4.2.2.2.2 (hR0 _) (hM.b0 env) hM.Zd hM.ZF
    (hM.nodup _) (hconj _) (hrej _) h4 x (hx _) hδ rfl
  refine (htot x (sn m.ZF δ)).trans ?_
  rw [a1, a2, a3, a4, e5, hB, hB, hB, hB, hcoup, hself]
  ring

/-- **C70**, the part that holds: light on the front of a perfect mirror whose phase is zero and whose sign is not flipped
pushes with `2 cos(θ) / c` times its power (`C65_coefficient` gives the power its photodiode would show).  What is missing:
other reflectivities, light on the back (`C70_refuted`). -/
theorem C70_partial (h2 : (2 : F) ≠ 0) (htors : ∀ k : K, -k = k → k = 0) (hM : m.Mounted env) (hAOI : m.AOI_deg ≠ 0)
    (h45 : m.AOI_deg = 45 → 1 / env.sqrt 2 = env.cos (m.AOI_deg * env.pi / 180)) (hone : env.sqrt 1 = 1)
    (hconj : ∀ a, ∀ k ∈ env.okeys (m.port a).i, ({ k with q := k.q.conj } : OKey O K) ∈ env.okeys (m.port a).i)
    (hrej : ∀ a, ∀ k ∈ env.okeys (m.port a).i, env.reject k.cls = false)
    {cs : List (Coupling P (Key O K) F)} (h : m.setup env = .ok cs) (x : P × Key O K → F)
    (hx : ∀ a k, k ∉ env.okeys (m.port a).i → x ((m.port a).i, .opt k) = 0) {δ : K} (hδ : δ ∈ env.skeys m.ZF)
    (hT : m.T_hr = 0) (hLh : m.L_hr = 0) (hB : m.R_backscatter = 0) (hφ : m.phase_rad = 0) (hflip : m.flip_sign = false)
    (hback : ∀ a ∈ [MPort.FrB, .BkA, .BkB], ∀ k, x ((m.port a).i, .opt k) = 0) :
    (cs.map (fun c => c.into x (m.ZF, .sig δ))).sum =
      -(2 * env.cos (m.AOI_deg * env.pi / 180) / env.c_m_s) * ((if δ = 0 then 1 else 2) *
        ∑ a ∈ (env.okeys (m.port .FrA).i).toFinset, ∑ b ∈ (env.okeys (m.port .FrA).i).toFinset,
          if a.q = .lower ∧ b.q = .raise ∧ a.opt = b.opt ∧ a.pol = b.pol ∧ a.cls = b.cls + δ then
            x ((m.port .FrA).i, .opt a) * x ((m.port .FrA).i, .opt b) else 0) := by
  have hz : ∀ a ∈ [MPort.FrB, .BkA, .BkB], beat (env.okeys (m.port a).i) (fun k => x ((m.port a).i, .opt k)) δ = 0 := by
    intro a ha
    unfold beat
    apply Finset.sum_eq_zero
    intro u _
    apply Finset.sum_eq_zero
    intro v _
    dsimp only
    rw [hback a ha, zero_mul, ite_self]
  have ht : ∀ q, m.turn env m.phase_rad q = 1 := fun q => if_neg (not_not.2 hφ)
  have hr : m.r env = 1 := by
    unfold r R
    rw [hflip, hT, hLh, hB]
    simp [hone]
  rw [C70_force env htors hM hAOI h45 hconj hrej h x hx hδ (fun _ => rfl), hM.b0 env hB, hr, ht, ht,
    hz .FrB (by simp), hz .BkA (by simp), hz .BkB (by simp)]
  show _ = _ * (_ * beat (env.okeys (m.port .FrA).i) (fun k => x ((m.port .FrA).i, .opt k)) δ)
  by_cases hd : δ = 0
  · simp only [if_pos hd]
    field_simp
    ring
  · simp only [if_neg hd]
    ring

/-! ## examples and refutations -/

/-- light enters at the carrier alone and leaves with its sidebands -/
noncomputable abbrev senv : OEnv (MPort × Fin 3) Unit ℤ ℂ :=
  demo (fun p => if p.2 = 0 then keysAt [0] else keysAt [0, 1, -1]) (fun _ => [0, 1, -1]) (fun _ => false)

theorem senv_mounted (flip : Bool) (B T Lhr Lt φ β A : ℝ) : (dm flip B T Lhr Lt φ β A).Mounted senv where
  inj := fun _ _ h => congrArg Prod.fst h
  nodup := fun _ => keysAt_nodup (by decide)
  Zd := show Balanced [0, 1, -1] from ⟨by decide, by decide⟩
  ZF := show Balanced [0, 1, -1] from ⟨by decide, by decide⟩
  sqrt0 := csqrt_zero

theorem senv_side (flip : Bool) (B T Lhr Lt φ β A : ℝ) (a b : MPort) :
    Sidebands senv ((dm flip B T Lhr Lt φ β A).port a).i ((dm flip B T Lhr Lt φ β A).port b).o
      (dm flip B T Lhr Lt φ β A).Zd := by
  show (keysAt [0]).Nodup ∧ (keysAt [0, 1, -1]).Nodup ∧ (∀ k ∈ keysAt [0], k ∈ keysAt [0, 1, -1]) ∧
    ∀ k ∈ keysAt [0], ∀ lk ∈ ([0, 1, -1] : List ℤ), false = false ∧ _ ∈ keysAt [0, 1, -1]
  refine ⟨keysAt_nodup (by decide), keysAt_nodup (by decide), fun k hk => ?_, fun k hk lk hlk => ⟨rfl, ?_⟩⟩
  · rw [mem_keysAt] at hk ⊢
    simp only [List.mem_singleton] at hk
    rw [hk]
    decide
  · rw [mem_keysAt] at hk ⊢
    simp only [List.mem_singleton] at hk
    show k.cls + lk ∈ _
    rw [hk, zero_add]
    exact hlk

/-- light of amplitude 1 at the front and a mirror that swings with amplitude 1 -/
noncomputable def swing : (MPort × Fin 3) × Key Unit ℤ → ℂ :=
  fun t => if t = ((.FrA, 0), .opt k0) then 1 else if t = ((.Fr, 2), .sig 1) ∨ t = ((.Fr, 2), .sig (-1)) then 1 else 0

/-- **C69** is false: the phase of the light that a swinging mirror reflects is twice `4π cos(θ) z / λ`, with `z` the
displacement at that time (here 1, at an angle of 60 degrees). -/
theorem C69_refuted : ∃ (env : OEnv (MPort × Fin 3) Unit ℤ ℂ) (m : Mirror (MPort × Fin 3) ℂ) (e : ℤ → ℂ)
    (x : (MPort × Fin 3) × Key Unit ℤ → ℂ) (cs : List (Coupling (MPort × Fin 3) (Key Unit ℤ) ℂ)) (md : Unit × Pol),
    (∀ k l, e (k + l) = e k * e l) ∧ m.Mounted env ∧ m.AOI_deg = 60 ∧ env.cos (60 * env.pi / 180) = 1 / 2 ∧
    (∀ a b, Sidebands env (m.port a).i (m.port b).o m.Zd) ∧ m.setup env = .ok cs ∧ m.T_hr = 0 ∧ m.L_hr = 0 ∧
    m.R_backscatter = 0 ∧ m.phase_rad = 0 ∧ m.flip_sign = false ∧
    wave e (env.skeys m.Zd) (fun lk => if lk = 0 then 0 else x (m.Zd, .sig lk)) = 1 ∧
    light e (env.okeys (m.port .FrA).i) (fun k => x ((m.port .FrA).i, .opt k)) md .lower = 1 ∧
    light e (env.okeys (m.port .FrB).o) (fun k => (cs.map (fun c => c.into x ((m.port .FrB).o, .opt k))).sum) md .lower =
      1 - env.i * (2 * (4 * env.pi * (1 / 2) * env.iwavelen_m ())) := by
  obtain ⟨cs, hcs⟩ := setup_ok (m := dm false 0 0 0 0 0 0 60) senv (senv_mounted ..).Zd.2 (senv_mounted ..).ZF.2
  have hM := senv_mounted false 0 0 0 0 0 0 60
  have hcos : Complex.cos (60 * (Real.pi : ℂ) / 180) = 1 / 2 := by
    have : (60 * (Real.pi : ℂ) / 180) = ((Real.pi / 3 : ℝ) : ℂ) := by
      push_cast
      ring
    rw [this, ← Complex.ofReal_cos, Real.cos_pi_div_three]
    norm_num
  have hw : wave (fun _ => (1 : ℂ)) [0, 1, -1] (fun lk => if lk = 0 then 0 else swing ((.Fr, 2), .sig lk)) = 1 := by
    simp [wave, swing]
    norm_num
  have hl : ∀ a, light (fun _ => (1 : ℂ)) (keysAt [0]) (fun k => swing ((a, 0), .opt k)) ((), Pol.S) .lower =
      if a = .FrA then 1 else 0 := by
    intro a
    unfold light
    rw [Finset.sum_eq_single k0]
    · simp [swing, k0]
    · intro k _ hk
      simp [swing, hk]
    · intro h
      exact absurd (List.mem_toFinset.2 (mem_keysAt.2 (by decide))) h
  refine ⟨senv, dm false 0 0 0 0 0 0 60, fun _ => 1, swing, cs, ((), .S), by simp, hM, by simp [dm], hcos,
    fun a b => senv_side .., hcs, by simp [dm], by simp [dm], by simp [dm], by simp [dm], rfl, hw, hl .FrA, ?_⟩
  have key := C69_motion senv (m := dm false 0 0 0 0 0 0 60) (e := fun _ => 1) (by simp) (fun k h => by omega) (by norm_num)
    hM (by simp [dm]) (by
      intro h
      exfalso
      have : ((60 : ℝ) : ℂ) = 45 := h
      norm_num at this) (fun a b => senv_side ..) hcs swing ((), .S) .lower
    (L := fun a => if a = .FrA then 1 else 0) (fun a => (hl a).symm) rfl rfl
    (.FrB, .BkB, .FrA, .LFrB, 1, -1) (by simp)
  have hr : (dm false 0 0 0 0 0 0 60).r senv = 1 := by
    unfold r R
    simp [dm, demo, csqrt_one]
  have ht : (dm false 0 0 0 0 0 0 60).turn senv (dm false 0 0 0 0 0 0 60).phase_rad .lower = 1 :=
    if_neg (not_not.2 (by simp [dm]))
  have hw' : wave (fun _ => (1 : ℂ)) (senv.skeys (dm false 0 0 0 0 0 0 60).Zd)
      (fun lk => if lk = 0 then 0 else swing ((dm false 0 0 0 0 0 0 60).Zd, .sig lk)) = 1 := hw
  have hc' : senv.cos ((dm false 0 0 0 0 0 0 60).AOI_deg * senv.pi / 180) = 1 / 2 := by
    refine Eq.trans ?_ hcos
    show Complex.cos (((60 : ℝ) : ℂ) * _ / 180) = _
    norm_num [demo]
  rw [hr, ht, hw', hc'] at key
  simp only [reduceCtorEq, if_true, if_false, mul_one, mul_zero, add_zero, zero_add, one_mul, Quantum.pick] at key
  rw [key]
  ring

/-- light of amplitude 1 at one port -/
noncomputable def lit (a : MPort) : (MPort × Fin 3) × Key Unit ℤ → ℂ :=
  fun t => if t = ((a, 0), .opt k0) ∨ t = ((a, 0), .opt { k0 with q := .raise }) then 1 else 0

/-- **C70** is false: the light of the back side pushes in the same direction as the light of the front side, and a mirror
that reflects a quarter of the light gets half of the force of a perfect mirror. -/
theorem C70_refuted : ∃ (env : OEnv (MPort × Fin 3) Unit ℤ ℂ) (m m' : Mirror (MPort × Fin 3) ℂ)
    (front back : (MPort × Fin 3) × Key Unit ℤ → ℂ) (cs cs' : List (Coupling (MPort × Fin 3) (Key Unit ℤ) ℂ)) (f : ℂ),
    m.Mounted env ∧ m.AOI_deg ≠ 0 ∧ m.setup env = .ok cs ∧ m.phase_rad = 0 ∧
    m.T_hr = 0 ∧ m.L_hr = 0 ∧ m.L_t = 0 ∧ m.R_backscatter = 0 ∧ m' = { m with T_hr := 3 / 4 } ∧ m'.setup env = .ok cs' ∧
    (∀ k, back ((m.port .BkA).i, .opt k) = front ((m.port .FrA).i, .opt k)) ∧
    (∀ k, ∀ a ∈ [MPort.FrB, .BkA, .BkB], front ((m.port a).i, .opt k) = 0) ∧
    (∀ k, ∀ a ∈ [MPort.FrA, .FrB, .BkB], back ((m.port a).i, .opt k) = 0) ∧ f ≠ 0 ∧
    (cs.map (fun c => c.into front (m.ZF, .sig 0))).sum = f ∧ (cs.map (fun c => c.into back (m.ZF, .sig 0))).sum = f ∧
    (cs'.map (fun c => c.into front (m'.ZF, .sig 0))).sum = f / 2 := by
  obtain ⟨cs, hcs⟩ := setup_ok (m := dm false 0 0 0 0 0 0 60) senv (senv_mounted ..).Zd.2 (senv_mounted ..).ZF.2
  obtain ⟨cs', hcs'⟩ := setup_ok (m := dm false 0 (3/4) 0 0 0 0 60) senv (senv_mounted ..).Zd.2 (senv_mounted ..).ZF.2
  have hcos : Complex.cos (((60 : ℝ) : ℂ) * (Real.pi : ℂ) / 180) = 1 / 2 := by
    have : (((60 : ℝ) : ℂ) * (Real.pi : ℂ) / 180) = ((Real.pi / 3 : ℝ) : ℂ) := by
      push_cast
      ring
    rw [this, ← Complex.ofReal_cos, Real.cos_pi_div_three]
    norm_num
  have hout : ∀ a c k, k ∉ keysAt [0] → lit a ((c, 0), .opt k) = 0 := by
    intro a c k hk
    have h1 : k ≠ k0 := by
      rintro rfl
      exact hk (mem_keysAt.2 (by decide))
    have h2 : k ≠ { k0 with q := .raise } := by
      rintro rfl
      exact hk (mem_keysAt.2 (by decide))
    simp [lit, h1, h2]
  have hbeat : ∀ a c, beat (keysAt [0]) (fun k => lit a ((c, 0), .opt k)) 0 = if c = a then 1 else 0 := by
    intro a c
    unfold beat
    have hmem : ∀ q, (⟨(), 0, .S, q⟩ : OKey Unit ℤ) ∈ (keysAt [0]).toFinset :=
      fun q => List.mem_toFinset.2 (mem_keysAt.2 (by simp))
    rw [Finset.sum_eq_single (⟨(), 0, .S, .lower⟩ : OKey Unit ℤ), Finset.sum_eq_single (⟨(), 0, .S, .raise⟩ : OKey Unit ℤ)]
    · simp [Beat, lit, k0]
    · rintro ⟨u, c', p, q⟩ _ hk
      rw [if_neg]
      rintro ⟨_, h2, _, h3, h4⟩
      dsimp only at h2 h3 h4
      rw [add_zero] at h4
      exact hk (by rw [h2, ← h3, ← h4])
    · exact fun h => absurd (hmem _) h
    · rintro ⟨u, c', p, q⟩ _ hk
      apply Finset.sum_eq_zero
      intro b _
      split_ifs with hB
      · have h1 : (⟨u, c', p, q⟩ : OKey Unit ℤ) ≠ k0 := hk
        have h2 : (⟨u, c', p, q⟩ : OKey Unit ℤ) ≠ { k0 with q := .raise } := by
          intro h
          have h3 := hB.1
          rw [h] at h3
          cases h3
        simp [lit, h1, h2]
      · rfl
    · exact fun h => absurd (hmem _) h
  have hconj : ∀ k ∈ keysAt [0], ({ k with q := k.q.conj } : OKey Unit ℤ) ∈ keysAt [0] := by
    intro k hk
    rw [mem_keysAt] at hk ⊢
    exact hk
  have force : ∀ (T : ℝ) (cs : List (Coupling (MPort × Fin 3) (Key Unit ℤ) ℂ)),
      (dm false 0 T 0 0 0 0 60).setup senv = .ok cs → ∀ a ∈ [MPort.FrA, .BkA],
      (cs.map (fun c => c.into (lit a) ((dm false 0 T 0 0 0 0 60).ZF, .sig 0))).sum =
        -1 / 299792458 * (dm false 0 T 0 0 0 0 60).r senv := by
    intro T cs hcs a ha
    have hM := senv_mounted false 0 T 0 0 0 0 60
    have key := C70_force senv (m := dm false 0 T 0 0 0 0 60) (fun k h => by omega) hM (by simp [dm]) (by
      intro h
      exfalso
      have : ((60 : ℝ) : ℂ) = 45 := h
      norm_num at this) (fun _ => hconj) (fun _ _ _ => rfl) hcs (lit a) (fun c k hk => hout a c k hk) (δ := 0)
      (show (0 : ℤ) ∈ ([0, 1, -1] : List ℤ) by decide) (B := fun c => if c = a then 1 else 0) (fun c => (hbeat a c).symm)
    have ht : ∀ q, (dm false 0 T 0 0 0 0 60).turn senv (dm false 0 T 0 0 0 0 60).phase_rad q = 1 :=
      fun q => if_neg (not_not.2 (by simp [dm]))
    have hc' : senv.cos ((dm false 0 T 0 0 0 0 60).AOI_deg * senv.pi / 180) = 1 / 2 := hcos
    rw [hM.b0 senv (by simp [dm]), ht, ht, hc'] at key
    rw [key]
    show -2 * (1 / 2) / (299792458 : ℂ) / _ * _ = _
    simp only [List.mem_cons, List.not_mem_nil, or_false] at ha
    rcases ha with rfl | rfl <;>
    · simp only [reduceCtorEq, if_true, if_false]
      norm_num
      ring
  have r1 : (dm false 0 0 0 0 0 0 60).r senv = 1 := by
    unfold r R
    simp [dm, demo, csqrt_one]
  have r2 : (dm false 0 (3/4) 0 0 0 0 60).r senv = 1 / 2 := by
    unfold r R
    show csqrt (1 - ((3 / 4 : ℝ) : ℂ) - ((0 : ℝ) : ℂ) - ((0 : ℝ) : ℂ)) = _
    rw [show (1 - (((3 / 4 : ℝ)) : ℂ) - ((0 : ℝ) : ℂ) - ((0 : ℝ) : ℂ)) = ((1 / 4 : ℝ) : ℂ) by push_cast; norm_num]
    unfold csqrt
    rw [Complex.ofReal_re, show (1 / 4 : ℝ) = (1 / 2) ^ 2 by norm_num, Real.sqrt_sq (by norm_num)]
    norm_num
  refine ⟨senv, dm false 0 0 0 0 0 0 60, dm false 0 (3/4) 0 0 0 0 60, lit .FrA, lit .BkA, cs, cs', -1 / 299792458,
    senv_mounted .., by simp [dm], hcs, by simp [dm], by simp [dm], by simp [dm], by simp [dm], by simp [dm], by simp [dm],
    hcs', ?_, ?_, ?_, by norm_num, ?_, ?_, ?_⟩
  · intro k
    simp [lit, dm, dport]
  · intro k a ha
    simp only [List.mem_cons, List.not_mem_nil, or_false] at ha
    rcases ha with rfl | rfl | rfl <;> simp [lit, dm, dport]
  · intro k a ha
    simp only [List.mem_cons, List.not_mem_nil, or_false] at ha
    rcases ha with rfl | rfl | rfl <;> simp [lit, dm, dport]
  · rw [force 0 cs hcs .FrA (by simp), r1, mul_one]
  · rw [force 0 cs hcs .BkA (by simp), r1, mul_one]
  · rw [force (3/4) cs' hcs' .FrA (by simp), r2]
    ring

/-- what `C69_motion`, `C70_force` and `C70_partial` ask for, with light of amplitude 1 at the front -/
example : ∃ cs, (dm false 0 0 0 0 0 0 60).setup senv = .ok cs ∧ (dm false 0 0 0 0 0 0 60).Mounted senv ∧
    (dm false 0 0 0 0 0 0 60).AOI_deg ≠ 0 ∧ (dm false 0 0 0 0 0 0 60).AOI_deg ≠ 45 ∧ senv.sqrt 1 = 1 ∧
    (∀ a, ∀ k ∈ senv.okeys ((dm false 0 0 0 0 0 0 60).port a).i,
      ({ k with q := k.q.conj } : OKey Unit ℤ) ∈ senv.okeys ((dm false 0 0 0 0 0 0 60).port a).i) ∧
    (∀ a, ∀ k ∈ senv.okeys ((dm false 0 0 0 0 0 0 60).port a).i, senv.reject k.cls = false) ∧
    (∀ a k, k ∉ senv.okeys ((dm false 0 0 0 0 0 0 60).port a).i →
      lit .FrA (((dm false 0 0 0 0 0 0 60).port a).i, .opt k) = 0) ∧
    (0 : ℤ) ∈ senv.skeys (dm false 0 0 0 0 0 0 60).ZF ∧ (dm false 0 0 0 0 0 0 60).T_hr = 0 ∧
    (dm false 0 0 0 0 0 0 60).L_hr = 0 ∧ (dm false 0 0 0 0 0 0 60).R_backscatter = 0 ∧
    (dm false 0 0 0 0 0 0 60).phase_rad = 0 ∧ (dm false 0 0 0 0 0 0 60).flip_sign = false ∧
    (∀ a ∈ [MPort.FrB, .BkA, .BkB], ∀ k, lit .FrA (((dm false 0 0 0 0 0 0 60).port a).i, .opt k) = 0) ∧
    (∀ a b, Sidebands senv ((dm false 0 0 0 0 0 0 60).port a).i ((dm false 0 0 0 0 0 0 60).port b).o
      (dm false 0 0 0 0 0 0 60).Zd) := by
  obtain ⟨cs, hcs⟩ := setup_ok (m := dm false 0 0 0 0 0 0 60) senv (senv_mounted ..).Zd.2 (senv_mounted ..).ZF.2
  refine ⟨cs, hcs, senv_mounted .., by simp [dm], ?_, csqrt_one, fun a => keysAt_conj _, fun _ _ _ => rfl, ?_,
    show (0 : ℤ) ∈ ([0, 1, -1] : List ℤ) by decide, by simp [dm], by simp [dm], by simp [dm], by simp [dm], rfl, ?_,
    fun a b => senv_side ..⟩
  · show ((60 : ℝ) : ℂ) ≠ 45
    norm_num
  · intro a k hk
    have h1 : k ≠ k0 := by
      rintro rfl
      exact hk (mem_keysAt.2 (by decide))
    have h2 : k ≠ { k0 with q := .raise } := by
      rintro rfl
      exact hk (mem_keysAt.2 (by decide))
    show lit .FrA ((a, 0), .opt k) = 0
    simp [lit, h1, h2]
  · intro a ha k
    simp only [List.mem_cons, List.not_mem_nil, or_false] at ha
    rcases ha with rfl | rfl | rfl <;> simp [lit, dm, dport]

end Mirror
end Optics
