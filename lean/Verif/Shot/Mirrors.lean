import Verif.Shot.Elements

/-!
# C86: mirrors which cannot move keep the commutators
-/

set_option linter.unusedSectionVars false

namespace Shot
open Py Inject Circuit Optics
open Signal (Balanced)

variable {P O K F : Type} [DecidableEq P] [DecidableEq O] [DecidableEq K] [AddCommGroup K] [Field F] [StarRing F]
  [DecidableEq F]
variable {env : OEnv P O K F} {ks : List (OKey O K)} {m : Mirror P F}

theorem get_values {α β : Type} [DecidableEq α] {a b c d j : α} {u v w z y : β}
    (h : Dict.get (Dict.ofList [(a, u), (b, v), (c, w), (d, z)]) j = .ok y) : y = u ∨ y = v ∨ y = w ∨ y = z := by
  unfold Dict.get at h
  rw [get4] at h
  split_ifs at h <;> simp at h <;> tauto

theorem get_values? {α β : Type} [DecidableEq α] {a b c d j : α} {u v w z y : β}
    (h : Dict.get? (Dict.ofList [(a, u), (b, v), (c, w), (d, z)]) j = some y) : y = u ∨ y = v ∨ y = w ∨ y = z := by
  rw [get4] at h
  split_ifs at h <;> simp at h <;> tauto

theorem main_ports : m.FrA ∈ m.ports_optical ∧ m.FrB ∈ m.ports_optical ∧ m.BkA ∈ m.ports_optical ∧ m.BkB ∈ m.ports_optical := by
  unfold Mirror.ports_optical Mirror.FrA Mirror.FrB Mirror.BkA Mirror.BkB Mirror.at4
  split_ifs <;> simp

theorem fill_edges (hZ : env.skeys m.Zd = []) (hF : env.skeys m.ZF = []) {port pto : Port P} {g test s : F} {k : OKey O K}
    {cs : List (Coupling P (Key O K) F)} (h : (m.reflection env port pto g test s k).fill env k = .ok cs) :
    ∀ c ∈ cs, ∃ v : F, c = .edge (on port.i k) (on pto.o k) v := by
  unfold Mod.fill at h
  obtain ⟨c1, d1, h1, hd1, rfl⟩ := blocks_cons h
  obtain ⟨c2, d2, h2, hd2, rfl⟩ := blocks_cons hd1
  obtain ⟨c3, d3, h3, hd3, rfl⟩ := blocks_cons hd2
  obtain rfl := blocks_nil hd3
  have e1 : c1 = [] := by
    change pair_loop (env.skeys m.Zd) true _ [] (env.skeys m.Zd) = .ok c1 at h1
    rw [hZ] at h1
    injection h1 with h1
    exact h1.symm
  have e3 : c3 = [] := by
    change pair_loop (env.skeys m.ZF) false _ [] (env.skeys m.ZF) = .ok c3 at h3
    rw [hF] at h3
    injection h3 with h3
    exact h3.symm
  subst e1 e3
  injection h2 with h2
  subst h2
  intro c hc
  rw [List.nil_append, List.nil_append, List.append_nil] at hc
  change c ∈ (match k.q with
      | .lower => [Coupling.edge (on port.i k) (on pto.o k) _]
      | .raise => [Coupling.edge (on port.i k) (on pto.o k) _]) at hc
  split at hc <;> exact ⟨_, List.mem_singleton.1 hc⟩

/-- the couplings of a mirror without mechanical keys -/
theorem setup_edges (hZ : env.skeys m.Zd = []) (hF : env.skeys m.ZF = [])
    {cs : List (Coupling P (Key O K) F)} (h : m.setup env = .ok cs) :
    ∀ c ∈ cs, ∃ a ∈ m.ports_optical ++ (if m.has_loss then m.ports_optical_loss else []), ∃ b ∈ m.ports_optical,
      ∃ k ∈ env.okeys a.i, ∃ v : F, c = .edge (on a.i k) (on b.o k) v := by
  obtain ⟨m1, m2, m3, m4⟩ := main_ports (m := m)
  intro c hc
  unfold Mirror.setup at h
  obtain ⟨b, hb, ds, rfl, hcd⟩ := blocks_mem h hc
  rcases List.mem_append.1 hb with hb | hb
  · obtain ⟨port, hport, hb⟩ := List.mem_map.1 hb
    refine ⟨port, List.mem_append_left _ hport, ?_⟩
    unfold Mirror.at_port at hb
    obtain ⟨s, hs, hb⟩ := bind_ok_inv hb
    obtain ⟨b', hb', ds', rfl, hcd'⟩ := blocks_mem hb hcd
    obtain ⟨k, hk, hb'⟩ := List.mem_map.1 hb'
    obtain ⟨b2, hb2, ds2, rfl, hcd2⟩ := blocks_mem hb' hcd'
    simp only [List.mem_cons, List.not_mem_nil, or_false] at hb2
    rcases hb2 with h1 | h1 | h1 | h1
    · unfold Mirror.transmit at h1
      split_ifs at h1
      · obtain ⟨v, hv, h1⟩ := bind_ok_inv h1.symm
        injection h1 with h1
        subst h1
        obtain rfl := List.mem_singleton.1 hcd2
        have hv' := get_values (show Dict.get (Dict.ofList [_, _, _, _]) port = .ok v from hv)
        refine ⟨v.1, ?_, k, hk, v.2, rfl⟩
        rcases hv' with rfl | rfl | rfl | rfl <;> assumption
      · injection h1 with h1
        subst h1
        cases hcd2
    · injection h1 with h1
      subst h1
      unfold Mirror.lose at hcd2
      split_ifs at hcd2
      · cases hv : Dict.get? (m.lmap env) port with
        | none =>
          rw [hv] at hcd2
          cases hcd2
        | some v =>
          rw [hv] at hcd2
          obtain rfl := List.mem_singleton.1 hcd2
          have hv' := get_values? (show Dict.get? (Dict.ofList [_, _, _, _]) port = some v from hv)
          refine ⟨v.1, ?_, k, hk, v.2, rfl⟩
          rcases hv' with rfl | rfl | rfl | rfl <;> assumption
      · cases hcd2
    · unfold Mirror.reflect at h1
      obtain ⟨v, hv, h1⟩ := bind_ok_inv h1.symm
      split_ifs at h1
      · obtain ⟨w, rfl⟩ := fill_edges hZ hF h1 c hcd2
        have hv' := get_values (show Dict.get (Dict.ofList [_, _, _, _]) port = .ok v from hv)
        refine ⟨v.1, ?_, k, hk, w, rfl⟩
        rcases hv' with rfl | rfl | rfl | rfl <;> assumption
      · injection h1 with h1
        subst h1
        cases hcd2
    · unfold Mirror.backscatter at h1
      split_ifs at h1
      · obtain ⟨v, hv, h1⟩ := bind_ok_inv h1.symm
        obtain ⟨w, rfl⟩ := fill_edges hZ hF h1 c hcd2
        have hv' := get_values (show Dict.get (Dict.ofList [_, _, _, _]) port = .ok v from hv)
        refine ⟨v.1, ?_, k, hk, w, rfl⟩
        rcases hv' with rfl | rfl | rfl | rfl <;> assumption
      · injection h1 with h1
        subst h1
        cases hcd2
  · have hb' := (List.mem_singleton.1 hb).symm
    unfold Mirror.loss_couplings at hb'
    by_cases hl : m.has_loss = true
    · rw [if_pos hl] at hb'
      obtain ⟨b2, hb2, ds2, rfl, hcd2⟩ := blocks_mem hb' hcd
      obtain ⟨port, hport, hb2⟩ := List.mem_map.1 hb2
      rw [if_pos hl]
      refine ⟨port, List.mem_append_right _ hport, ?_⟩
      cases hv : Dict.get? (m.lmap env) port with
      | none =>
        rw [hv] at hb2
        cases hb2
      | some v =>
        rw [hv] at hb2
        injection hb2 with hb2
        subst hb2
        obtain ⟨k, hk, rfl⟩ := List.mem_map.1 hcd2
        have hv' := get_values? (show Dict.get? (Dict.ofList [_, _, _, _]) port = some v from hv)
        refine ⟨v.1, ?_, k, hk, v.2, rfl⟩
        rcases hv' with rfl | rfl | rfl | rfl <;> assumption
    · rw [if_neg hl] at hb'
      injection hb' with hb'
      subst hb'
      cases hcd

/-- **C86**: a mirror at an angle with phase zero which cannot move keeps the commutators, its loss ports (if it has losses)
included among the inputs. -/
theorem C86_mirror (hn : ks.Nodup) (hconj : ∀ k ∈ ks, k.conj ∈ ks) (hM : m.Mounted env)
    (hi : Function.Injective (fun a => (m.port a).i)) (hk : ∀ a, env.okeys (m.port a).i = ks) (hr : Mirror.RealRoots env m)
    (hAOI : m.AOI_deg ≠ 0) (hφ : m.phase_rad = 0) (hZ : env.skeys m.Zd = []) (hF : env.skeys m.ZF = [])
    {cs : List (Coupling P (Key O K) F)} (h : m.setup env = .ok cs) :
    Passive ks cs (([MPort.FrA, .FrB, .BkA, .BkB] ++ if m.has_loss then [MPort.LFrA, .LFrB, .LBkA, .LBkB] else []).map
      (fun a => (m.port a).i)) ([MPort.FrA, .FrB, .BkA, .BkB].map (fun b => (m.port b).o)) := by
  have p4 : ∀ a b, m.at4 a b = m.port a := fun a b => if_neg hAOI
  have hpo : m.ports_optical = [m.port .FrA, m.port .BkA, m.port .FrB, m.port .BkB] := by
    unfold Mirror.ports_optical Mirror.FrA Mirror.BkA Mirror.FrB Mirror.BkB
    rw [if_neg hAOI, p4, p4, p4, p4]
  have hpl : m.ports_optical_loss = [m.port .LFrA, m.port .LBkA, m.port .LFrB, m.port .LBkB] := by
    unfold Mirror.ports_optical_loss Mirror.LFrA Mirror.LBkA Mirror.LFrB Mirror.LBkB
    rw [if_neg hAOI, p4, p4, p4, p4]
  have hg : ∀ a b : MPort, ∀ k, amp cs (on (m.port a).i k) (on (m.port b).o k) = Mirror.gain m cs k a b := fun _ _ _ => rfl
  have hkey := fun k (hkk : k ∈ ks) a => Mirror.scatter env (Mirror.unit_still env hM k (fun a => hk a ▸ hkk) a) hAOI h k
  apply Passive.of_keeping hn
  · intro c hc
    obtain ⟨a, ha, b, hb, k, hkk, v, rfl⟩ := setup_edges hZ hF h c hc
    have hb' : b.o ∈ [MPort.FrA, .FrB, .BkA, .BkB].map (fun b => (m.port b).o) := by
      rw [hpo] at hb
      simp only [List.mem_cons, List.not_mem_nil, or_false] at hb
      rcases hb with rfl | rfl | rfl | rfl <;> simp
    have ha' : a.i ∈ ([MPort.FrA, .FrB, .BkA, .BkB] ++ if m.has_loss then [MPort.LFrA, .LFrB, .LBkA, .LBkB] else []).map
        (fun a => (m.port a).i) ∧ k ∈ ks := by
      rw [hpo, hpl] at ha
      rcases List.mem_append.1 ha with ha | ha
      · simp only [List.mem_cons, List.not_mem_nil, or_false] at ha
        rcases ha with rfl | rfl | rfl | rfl <;> exact ⟨by simp, hk _ ▸ hkk⟩
      · split_ifs at ha
        · simp only [List.mem_cons, List.not_mem_nil, or_false] at ha
          rw [if_pos ‹_›]
          rcases ha with rfl | rfl | rfl | rfl <;> exact ⟨by simp, hk _ ▸ hkk⟩
        · cases ha
    exact ⟨a.i, ha'.1, b.o, hb', k, ha'.2, v, rfl⟩
  · intro b hb b' hb' k hkk
    obtain ⟨B, hB, rfl⟩ := List.mem_map.1 hb
    obtain ⟨B', hB', rfl⟩ := List.mem_map.1 hb'
    have hv := Mirror.C67_vacuum_partial env hM hi hr hAOI hφ h k (fun a => hk a ▸ hkk) B B' hB hB'
    have hBB : ((m.port B).o = (m.port B').o) ↔ B = B' := ⟨fun hh => hM.inj hh, fun hh => by rw [hh]⟩
    rw [List.map_map]
    simp only [hBB]
    rw [← hv]
    by_cases hl : m.has_loss = true
    · rw [if_pos hl]
      rfl
    · rw [if_neg hl]
      have hl0 := hM.l0 env (by simpa using hl)
      have hu := Mirror.unit_at hi k (m := m)
      have hz : ∀ a ∈ [MPort.LFrA, .LFrB, .LBkA, .LBkB], Mirror.gain m cs k a B = 0 := by
        intro a ha
        obtain ⟨k1, k2, k3, k4⟩ := hkey k hkk a
        simp only [hu, hl0, zero_mul, add_zero] at k1 k2 k3 k4
        unfold Mirror.gain
        simp only [List.mem_cons, List.not_mem_nil, or_false] at ha hB
        rcases hB with rfl | rfl | rfl | rfl <;> rcases ha with rfl | rfl | rfl | rfl <;>
          simp only [k1, k2, k3, k4, reduceCtorEq, if_false, mul_zero, add_zero, sub_zero]
      simp only [List.append_nil, List.map_cons, List.map_nil, List.sum_cons, List.sum_nil, Function.comp, hg,
        hz _ (show MPort.LFrA ∈ _ by simp), hz _ (show MPort.LFrB ∈ _ by simp), hz _ (show MPort.LBkA ∈ _ by simp),
        hz _ (show MPort.LBkB ∈ _ by simp), zero_mul, add_zero]
  · intro a ha b hb k hkk
    obtain ⟨A, hA, rfl⟩ := List.mem_map.1 ha
    obtain ⟨B, hB, rfl⟩ := List.mem_map.1 hb
    rw [hg, hg]
    have hu := Mirror.unit_at hi k (m := m)
    have hu' := Mirror.unit_at hi k.conj (m := m)
    obtain ⟨k1, k2, k3, k4⟩ := hkey k hkk A
    obtain ⟨j1, j2, j3, j4⟩ := hkey k.conj (hconj k hkk) A
    simp only [hu, hu', hr.turn_one env hφ] at k1 k2 k3 k4 j1 j2 j3 j4
    unfold Mirror.gain
    simp only [List.mem_cons, List.not_mem_nil, or_false] at hB
    rcases hB with rfl | rfl | rfl | rfl <;>
      simp only [k1, k2, k3, k4, j1, j2, j3, j4, star_add, star_sub, star_mul', hr.t_star, hr.r_star, hr.b_star, hr.l_star,
        star_one] <;>
      split_ifs <;> simp

/-- **C86**: a mirror at normal incidence with phase zero and no backscatter which cannot move keeps the commutators. -/
theorem C86_normal_mirror (hn : ks.Nodup) (hconj : ∀ k ∈ ks, k.conj ∈ ks) (hM : m.Mounted env)
    (hi : Function.Injective (fun a => (m.port a).i)) (hk : ∀ a, env.okeys (m.port a).i = ks) (hr : Mirror.RealRoots env m)
    (hAOI : m.AOI_deg = 0) (hφ : m.phase_rad = 0) (hB0 : m.R_backscatter = 0) (hZ : env.skeys m.Zd = [])
    (hF : env.skeys m.ZF = []) {cs : List (Coupling P (Key O K) F)} (h : m.setup env = .ok cs) :
    Passive ks cs (([MPort.Fr, .Bk] ++ if m.has_loss then [MPort.LFr, .LBk] else []).map (fun a => (m.port a).i))
      ([MPort.Fr, .Bk].map (fun b => (m.port b).o)) := by
  have p2 : ∀ a b, m.at4 a b = m.port b := fun a b => if_pos hAOI
  have hpo : m.ports_optical = [m.port .Fr, m.port .Bk] := by
    unfold Mirror.ports_optical Mirror.FrA Mirror.BkA
    rw [if_pos hAOI, p2, p2]
  have hpl : m.ports_optical_loss = [m.port .LFr, m.port .LBk] := by
    unfold Mirror.ports_optical_loss Mirror.LFrA Mirror.LBkA
    rw [if_pos hAOI, p2, p2]
  have hg : ∀ a b : MPort, ∀ k, amp cs (on (m.port a).i k) (on (m.port b).o k) = Mirror.gain m cs k a b := fun _ _ _ => rfl
  have hkey := fun k (hkk : k ∈ ks) a => Mirror.normal env (Mirror.unit_still env hM k (fun a => hk a ▸ hkk) a) hAOI h k
  have hsum : m.t env * m.t env + m.r env * m.r env + m.l env * m.l env = 1 := by
    rw [hr.t2, hr.r2, hr.l2]
    unfold Mirror.T Mirror.R Mirror.L
    rw [hB0]
    ring
  apply Passive.of_keeping hn
  · intro c hc
    obtain ⟨a, ha, b, hb, k, hkk, v, rfl⟩ := setup_edges hZ hF h c hc
    have hb' : b.o ∈ [MPort.Fr, .Bk].map (fun b => (m.port b).o) := by
      rw [hpo] at hb
      simp only [List.mem_cons, List.not_mem_nil, or_false] at hb
      rcases hb with rfl | rfl <;> simp
    have ha' : a.i ∈ ([MPort.Fr, .Bk] ++ if m.has_loss then [MPort.LFr, .LBk] else []).map
        (fun a => (m.port a).i) ∧ k ∈ ks := by
      rw [hpo, hpl] at ha
      rcases List.mem_append.1 ha with ha | ha
      · simp only [List.mem_cons, List.not_mem_nil, or_false] at ha
        rcases ha with rfl | rfl <;> exact ⟨by simp, hk _ ▸ hkk⟩
      · split_ifs at ha
        · simp only [List.mem_cons, List.not_mem_nil, or_false] at ha
          rw [if_pos ‹_›]
          rcases ha with rfl | rfl <;> exact ⟨by simp, hk _ ▸ hkk⟩
        · cases ha
    exact ⟨a.i, ha'.1, b.o, hb', k, ha'.2, v, rfl⟩
  · intro b hb b' hb' k hkk
    obtain ⟨B, hB, rfl⟩ := List.mem_map.1 hb
    obtain ⟨B', hB', rfl⟩ := List.mem_map.1 hb'
    have hBB : ((m.port B).o = (m.port B').o) ↔ B = B' := ⟨fun hh => hM.inj hh, fun hh => by rw [hh]⟩
    rw [List.map_map]
    simp only [hBB]
    have hu := Mirror.unit_at hi k (m := m)
    have g1 := fun a => (hkey k hkk a).1
    have g2 := fun a => (hkey k hkk a).2
    simp only [hu, hr.turn_one env hφ, hM.b0 env hB0] at g1 g2
    have hgF : ∀ a, Mirror.gain m cs k a .Fr = _ := fun a => g1 a
    have hgB : ∀ a, Mirror.gain m cs k a .Bk = _ := fun a => g2 a
    simp only [List.mem_cons, List.not_mem_nil, or_false] at hB hB'
    by_cases hl : m.has_loss = true
    · rw [if_pos hl]
      rcases hB with rfl | rfl <;> rcases hB' with rfl | rfl <;>
        simp only [List.cons_append, List.nil_append, List.map_cons, List.map_nil, List.sum_cons, List.sum_nil, Function.comp,
          hg, hgF, hgB, reduceCtorEq, if_true, if_false, mul_one, mul_zero, add_zero, zero_add, sub_zero, zero_sub, star_neg,
          star_zero, zero_mul, hr.t_star, hr.r_star, hr.l_star, star_mul', star_one, star_sub, star_add] <;>
        first
          | linear_combination hsum
          | ring
    · rw [if_neg hl]
      have hl0 := hM.l0 env (by simpa using hl)
      rw [hl0] at hsum
      rcases hB with rfl | rfl <;> rcases hB' with rfl | rfl <;>
        simp only [List.append_nil, List.map_cons, List.map_nil, List.sum_cons, List.sum_nil, Function.comp,
          hg, hgF, hgB, hl0, reduceCtorEq, if_true, if_false, mul_one, mul_zero, add_zero, zero_add, sub_zero, zero_sub, star_neg,
          star_zero, zero_mul, hr.t_star, hr.r_star, star_mul', star_one, star_sub, star_add] <;>
        first
          | linear_combination hsum
          | ring
  · intro a ha b hb k hkk
    obtain ⟨A, hA, rfl⟩ := List.mem_map.1 ha
    obtain ⟨B, hB, rfl⟩ := List.mem_map.1 hb
    rw [hg, hg]
    have hu := Mirror.unit_at hi k (m := m)
    have hu' := Mirror.unit_at hi k.conj (m := m)
    obtain ⟨k1, k2⟩ := hkey k hkk A
    obtain ⟨j1, j2⟩ := hkey k.conj (hconj k hkk) A
    simp only [hu, hu', hr.turn_one env hφ] at k1 k2 j1 j2
    unfold Mirror.gain
    simp only [List.mem_cons, List.not_mem_nil, or_false] at hB
    rcases hB with rfl | rfl <;>
      simp only [k1, k2, j1, j2, star_add, star_sub, star_mul', hr.t_star, hr.r_star, hr.b_star, hr.l_star,
        star_one] <;>
      split_ifs <;> simp

end Shot
