import Verif.Shot.Basic

/-!
# C86: the elements which keep the commutators
-/

set_option linter.unusedSectionVars false

namespace Shot
open Py Inject Circuit Optics
open Signal (Balanced)

variable {P O K F : Type} [DecidableEq P] [DecidableEq O] [DecidableEq K] [AddCommGroup K] [Field F] [StarRing F]
  [DecidableEq F]

/-- The couplings are plain edges from the inputs `ins` to the outputs `outs` at the keys `ks`, they do not change the optical
frequency, the rows of their scattering matrix are orthonormal, and they act on the raising fields with the conjugate
amplitudes. -/
structure Passive (ks : List (OKey O K)) (cs : List (Coupling P (Key O K) F)) (ins outs : List P) : Prop where
  edges : ∀ c ∈ cs, ∃ a ∈ ins, ∃ b ∈ outs, ∃ k ∈ ks, ∃ k' ∈ ks, ∃ v : F,
    c = .edge (a, .opt k) (b, .opt k') v ∧ k'.opt = k.opt
  rows : ∀ b ∈ outs, ∀ b' ∈ outs, ∀ k ∈ ks, ∀ k' ∈ ks,
    (ins.map (fun a => (ks.map (fun j => amp cs (a, .opt j) (b, .opt k) * star (amp cs (a, .opt j) (b', .opt k')))).sum)).sum =
      if b = b' ∧ k = k' then 1 else 0
  conj : ∀ a ∈ ins, ∀ b ∈ outs, ∀ k ∈ ks, ∀ k' ∈ ks,
    amp cs (a, .opt { k with q := k.q.conj }) (b, .opt { k' with q := k'.q.conj }) = star (amp cs (a, .opt k) (b, .opt k'))

/-- elements which do not change the key -/
theorem Passive.of_keeping {ks : List (OKey O K)} (hn : ks.Nodup) {cs : List (Coupling P (Key O K) F)} {ins outs : List P}
    (he : ∀ c ∈ cs, ∃ a ∈ ins, ∃ b ∈ outs, ∃ k ∈ ks, ∃ v : F, c = .edge (on a k) (on b k) v)
    (hr : ∀ b ∈ outs, ∀ b' ∈ outs, ∀ k ∈ ks,
      (ins.map (fun a => amp cs (on a k) (on b k) * star (amp cs (on a k) (on b' k)))).sum = if b = b' then 1 else 0)
    (hc : ∀ a ∈ ins, ∀ b ∈ outs, ∀ k ∈ ks, amp cs (on a k.conj) (on b k.conj) = star (amp cs (on a k) (on b k))) :
    Passive ks cs ins outs := by
  have h0 : ∀ a b : P, ∀ k k' : OKey O K, k ≠ k' → amp cs (on a k) (on b k') = 0 := by
    intro a b k k' hk
    apply amp_zero
    intro c hc
    obtain ⟨a', _, b', _, j, _, v, rfl⟩ := he c hc
    refine ⟨_, _, v, rfl, ?_⟩
    rintro ⟨h1, h2⟩
    injection h1 with _ h1
    injection h1 with h1
    injection h2 with _ h2
    injection h2 with h2
    exact hk (h1 ▸ h2)
  refine ⟨?_, ?_, ?_⟩
  · intro c hc
    obtain ⟨a, ha, b, hb, k, hk, v, rfl⟩ := he c hc
    exact ⟨a, ha, b, hb, k, hk, k, hk, v, rfl, rfl⟩
  · intro b hb b' hb' k hk k' hk'
    have h1 : ∀ a, (ks.map (fun j => amp cs (on a j) (on b k) * star (amp cs (on a j) (on b' k')))).sum =
        if k = k' then amp cs (on a k) (on b k) * star (amp cs (on a k) (on b' k)) else 0 := by
      intro a
      rw [← List.sum_toFinset _ hn, Finset.sum_eq_single k]
      · by_cases h : k = k'
        · rw [if_pos h, ← h]
        · rw [if_neg h, h0 a b' k k' h, star_zero, mul_zero]
      · intro j _ hj
        rw [h0 a b j k hj, zero_mul]
      · intro h
        exact absurd (List.mem_toFinset.2 hk) h
    change (ins.map (fun a => (ks.map (fun j => amp cs (on a j) (on b k) * star (amp cs (on a j) (on b' k')))).sum)).sum = _
    simp only [h1]
    by_cases h : k = k'
    · subst h
      simp only [if_true, and_true]
      exact hr b hb b' hb' k hk
    · simp only [h, and_false, if_false]
      simp
  · intro a ha b hb k hk k' hk'
    by_cases h : k = k'
    · subst h
      exact hc a ha b hb k hk
    · have h1 := h0 a b k k' h
      have h2 := h0 a b k.conj k'.conj (fun hh => h (by rw [← k.conj_conj, hh, k'.conj_conj]))
      change amp cs (on a k.conj) (on b k'.conj) = star (amp cs (on a k) (on b k'))
      rw [h1, h2, star_zero]

/-! ## bonds -/

variable {env : OEnv P O K F} {ks : List (OKey O K)}

theorem amp_map (a b : P) (hn : ks.Nodup) (v : OKey O K → F) (a' b' : P) {j : OKey O K} (hj : j ∈ ks) :
    amp (ks.map (fun k => Coupling.edge (on a k) (on b k) (v k))) (on a' j) (on b' j) = if a = a' ∧ b = b' then v j else 0 := by
  unfold amp
  rw [List.map_map, ← List.sum_toFinset _ hn, Finset.sum_eq_single j]
  · have := amp_edge (on a j) (on b j) (v j) (on a' j) (on b' j)
    unfold amp at this
    rw [List.map_cons, List.map_nil, List.sum_cons, List.sum_nil, add_zero] at this
    refine this.trans ?_
    simp
  · intro k _ hk
    have := amp_edge (on a k) (on b k) (v k) (on a' j) (on b' j)
    unfold amp at this
    rw [List.map_cons, List.map_nil, List.sum_cons, List.sum_nil, add_zero] at this
    refine this.trans (if_neg ?_)
    rintro ⟨h1, -⟩
    injection h1 with _ h1
    injection h1 with h1
    exact hk h1
  · intro h
    exact absurd (List.mem_toFinset.2 hj) h

/-- **C86**: bonds keep the commutators. -/
theorem C86_wire (hn : ks.Nodup) (hconj : ∀ k ∈ ks, k.conj ∈ ks) {a b : P} (ha : env.okeys a = ks) :
    Passive ks (owire_setup env a b) [a] [b] := by
  unfold owire_setup
  rw [ha]
  apply Passive.of_keeping hn
  · intro c hc
    obtain ⟨k, hk, rfl⟩ := List.mem_map.1 hc
    exact ⟨a, by simp, b, by simp, k, hk, 1, rfl⟩
  · intro b1 h1 b2 h2 k hk
    obtain rfl := List.mem_singleton.1 h1
    obtain rfl := List.mem_singleton.1 h2
    rw [List.map_cons, List.map_nil, List.sum_cons, List.sum_nil, amp_map a b2 hn (fun _ => 1) a b2 hk, if_pos ⟨rfl, rfl⟩]
    simp
  · intro a1 h1 b1 h2 k hk
    rw [amp_map a b hn (fun _ => 1) _ _ hk, amp_map a b hn (fun _ => 1) _ _ (hconj k hk)]
    split_ifs <;> simp

/-- the same coupling both ways between two ports -/
theorem two_ways (hn : ks.Nodup) (hconj : ∀ k ∈ ks, k.conj ∈ ks) {p q : Port P} (hi : p.i ≠ q.i) (ho : p.o ≠ q.o)
    (v : OKey O K → F) (hv : ∀ k ∈ ks, v k * star (v k) = 1) (hvc : ∀ k ∈ ks, v k.conj = star (v k)) :
    Passive ks ([(p, q), (q, p)].flatMap (fun pq => ks.map (fun k => Coupling.edge (on pq.1.i k) (on pq.2.o k) (v k))))
      [p.i, q.i] [p.o, q.o] := by
  rw [List.flatMap_cons, List.flatMap_cons, List.flatMap_nil, List.append_nil]
  have hamp : ∀ a b : P, ∀ k ∈ ks, amp (ks.map (fun k => Coupling.edge (on p.i k) (on q.o k) (v k)) ++
      ks.map (fun k => Coupling.edge (on q.i k) (on p.o k) (v k))) (on a k) (on b k) =
      (if p.i = a ∧ q.o = b then v k else 0) + (if q.i = a ∧ p.o = b then v k else 0) := by
    intro a b k hk
    rw [amp_append, amp_map _ _ hn v _ _ hk, amp_map _ _ hn v _ _ hk]
  apply Passive.of_keeping hn
  · intro c hc
    rcases List.mem_append.1 hc with hc | hc
    · obtain ⟨k, hk, rfl⟩ := List.mem_map.1 hc
      exact ⟨p.i, by simp, q.o, by simp, k, hk, v k, rfl⟩
    · obtain ⟨k, hk, rfl⟩ := List.mem_map.1 hc
      exact ⟨q.i, by simp, p.o, by simp, k, hk, v k, rfl⟩
  · intro b hb b' hb' k hk
    simp only [List.map_cons, List.map_nil, List.sum_cons, List.sum_nil, hamp _ _ k hk]
    simp only [List.mem_cons, List.not_mem_nil, or_false] at hb hb'
    rcases hb with rfl | rfl <;> rcases hb' with rfl | rfl <;>
      simp [hi, hi.symm, ho, ho.symm, hv k hk]
  · intro a _ b _ k hk
    rw [hamp _ _ k hk, hamp _ _ _ (hconj k hk), hvc k hk]
    split_ifs <;> simp

/-! ## spaces and wave plates -/

/-- **C86**: spaces keep the commutators. -/
theorem C86_space (hn : ks.Nodup) (hconj : ∀ k ∈ ks, k.conj ∈ ks)
    (hexp : ∀ a b, env.exp (a + b) = env.exp a * env.exp b) (h0 : env.exp 0 = 1)
    (hstar : ∀ z, star (env.exp z) = env.exp (star z)) (hi : star env.i2pi = -env.i2pi) (hc : star env.c_m_s = env.c_m_s)
    (hw : ∀ o, star (env.iwavelen_m o) = env.iwavelen_m o) (hf : ∀ k, star (env.freq k) = env.freq k)
    (e : Space P F) (hL : star e.L_m = e.L_m) (hd : star e.L_detune_m = e.L_detune_m)
    (hp : e.po_Fr.i ≠ e.po_Bk.i) (hq : e.po_Fr.o ≠ e.po_Bk.o) (hF : env.okeys e.po_Fr.i = ks) (hB : env.okeys e.po_Bk.i = ks) :
    Passive ks (e.setup env) [e.po_Fr.i, e.po_Bk.i] [e.po_Fr.o, e.po_Bk.o] := by
  have hinv : ∀ z, env.exp (-z) * env.exp z = 1 := fun z => by rw [← hexp, neg_add_cancel, h0]
  have hcc : ∀ k : OKey O K, e.cplg env k.conj = star (e.cplg env k) := by
    rintro ⟨o, f, p, q⟩
    have hr : star (env.freq f * e.L_m / env.c_m_s + e.L_detune_m * env.iwavelen_m o) =
        env.freq f * e.L_m / env.c_m_s + e.L_detune_m * env.iwavelen_m o := by
      rw [star_add, star_mul', Signal.star_div_, star_mul', hw, hf, hL, hd, hc]
    cases q with
    | lower =>
      unfold Space.cplg OKey.conj Quantum.conj Space.phase_lower Space.phase_raise
      dsimp only
      rw [hstar, star_mul', star_neg, hi, neg_neg, hr]
    | raise =>
      unfold Space.cplg OKey.conj Quantum.conj Space.phase_lower Space.phase_raise
      dsimp only
      rw [hstar, star_mul', hi, hr]
  have hcv : ∀ k : OKey O K, e.cplg env k * e.cplg env k.conj = 1 := by
    rintro ⟨o, f, p, q⟩
    cases q with
    | lower =>
      unfold Space.cplg OKey.conj Quantum.conj Space.phase_lower Space.phase_raise
      dsimp only
      rw [neg_mul, hinv]
    | raise =>
      unfold Space.cplg OKey.conj Quantum.conj Space.phase_lower Space.phase_raise
      dsimp only
      rw [neg_mul, mul_comm, hinv]
  have := two_ways hn hconj hp hq (e.cplg env) (fun k _ => by rw [← hcc, hcv]) (fun k _ => hcc k)
  unfold Space.setup
  simp only [List.flatMap_cons, List.flatMap_nil, List.append_nil, hF, hB] at this ⊢
  exact this

/-- **C86**: wave plates whose couplings have modulus one keep the commutators. -/
theorem C86_wave_plate (hn : ks.Nodup) (hconj : ∀ k ∈ ks, k.conj ∈ ks) (e : WavePlate P F)
    (hS : e.cplgS * star e.cplgS = 1) (hP : e.cplgP * star e.cplgP = 1) (hSC : e.cplgSC? = none) (hPC : e.cplgPC? = none)
    (hp : e.po_Fr.i ≠ e.po_Bk.i) (hq : e.po_Fr.o ≠ e.po_Bk.o) (hF : env.okeys e.po_Fr.i = ks) (hB : env.okeys e.po_Bk.i = ks) :
    Passive ks (e.setup env) [e.po_Fr.i, e.po_Bk.i] [e.po_Fr.o, e.po_Bk.o] := by
  have hcc : ∀ k : OKey O K, e.cplg k.conj = star (e.cplg k) := by
    rintro ⟨o, f, p, q⟩
    cases p <;> cases q <;> simp [WavePlate.cplg, OKey.conj, Quantum.conj, WavePlate.cplgSC, WavePlate.cplgPC, hSC, hPC]
  have hcv : ∀ k : OKey O K, e.cplg k * star (e.cplg k) = 1 := by
    rintro ⟨o, f, p, q⟩
    cases p <;> cases q <;> simp [WavePlate.cplg, WavePlate.cplgSC, WavePlate.cplgPC, hSC, hPC, hS, hP, mul_comm _ e.cplgS,
      mul_comm _ e.cplgP]
  have := two_ways hn hconj hp hq (fun k => e.cplg k) (fun k _ => hcv k) (fun k _ => hcc k)
  unfold WavePlate.setup
  simp only [List.flatMap_cons, List.flatMap_nil, List.append_nil, hF, hB] at this ⊢
  exact this

/-! ## rotators -/

theorem amp_within {cs : List (Coupling P (Key O K) F)} {k : OKey O K} (a p : P) (hn : (env.okeys p).Nodup)
    (hk : k ∈ env.okeys p) : Within env (fun n => if n = on a k then (1 : F) else 0) p := by
  refine ⟨hn, fun j hj => if_neg ?_⟩
  intro h
  injection h with _ h
  injection h with h
  exact hj (h ▸ hk)

/-- **C86**: rotators keep the commutators. -/
theorem C86_rotator (hA : Angles env) [CharZero F] (hn : ks.Nodup)
    (hconj : ∀ k ∈ ks, k.conj ∈ ks) (hflip : ∀ k ∈ ks, k.flip ∈ ks) (e : Rotator P F)
    (hd : star e.rotate_deg = e.rotate_deg) (hpi : star env.pi = env.pi)
    (hcos : ∀ z, star (env.cos z) = env.cos (star z)) (hsin : ∀ z, star (env.sin z) = env.sin (star z))
    (hp : e.po_Fr.i ≠ e.po_Bk.i) (hq : e.po_Fr.o ≠ e.po_Bk.o) (hF : env.okeys e.po_Fr.i = ks) (hB : env.okeys e.po_Bk.i = ks)
    {cs : List (Coupling P (Key O K) F)} (hcs : cs ∈ [e.polarization env, e.faraday env]) :
    Passive ks cs [e.po_Fr.i, e.po_Bk.i] [e.po_Fr.o, e.po_Bk.o] := by
  obtain ⟨back, rfl, hb⟩ : ∃ back : F, cs = e.run env back ∧ (back = -1 ∨ back = 1) := by
    simp only [List.mem_cons, List.not_mem_nil, or_false] at hcs
    rcases hcs with rfl | rfl
    · exact ⟨-1, rfl, Or.inl rfl⟩
    · exact ⟨1, rfl, Or.inr rfl⟩
  have hbs : star back = back := by rcases hb with rfl | rfl <;> simp
  have hb2 : back * back = 1 := by rcases hb with rfl | rfl <;> simp
  set θ := e.rotate_deg / 180 * env.pi with hθ
  have hθs : star θ = θ := by
    rw [hθ, star_mul', Signal.star_div_, hd, hpi]
    congr 2
    exact map_ofNat (starRingEnd F) 180
  have hcs' : star (env.cos θ) = env.cos θ := by rw [hcos, hθs]
  have hss' : star (env.sin θ) = env.sin θ := by rw [hsin, hθs]
  have hsq := hA.sq θ
  have hon : ∀ (a b : P) (j k : OKey O K), (on a j = on b k) ↔ (a = b ∧ j = k) := by
    intro a b j k
    constructor
    · intro h
      injection h with h1 h
      injection h with h
      exact ⟨h1, h⟩
    · rintro ⟨rfl, rfl⟩
      rfl
  have hBk : ∀ a : P, ∀ j ∈ ks, ∀ k, amp (e.run env back) (on a j) (on e.po_Bk.o k) =
      if a = e.po_Fr.i then (if j = k then env.cos θ else if j = k.flip then k.pol.pick (-env.sin θ) (env.sin θ) else 0)
      else 0 := by
    intro a j hj k
    have h := (run_total hA e (x := fun n => if n = on a j then (1 : F) else 0) (back := back) hq
      (amp_within (cs := []) a _ (hF ▸ hn) (hF ▸ hj)) (amp_within (cs := []) a _ (hB ▸ hn) (hB ▸ hj)) hθ k).1
    refine h.trans ?_
    simp only [hon]
    have hne : k.flip ≠ k := by
      obtain ⟨o, f, p, q⟩ := k
      cases p <;> simp [OKey.flip, Pol.swap]
    by_cases ha : a = e.po_Fr.i
    · by_cases h1 : j = k
      · subst h1
        simp [ha, hne]
      · by_cases h2 : j = k.flip
        · subst h2
          simp [ha, hne, hne.symm]
        · simp [ha, h1, h2, Ne.symm h1, Ne.symm h2]
    · simp [ha, Ne.symm ha]
  have hFr : ∀ a : P, ∀ j ∈ ks, ∀ k, amp (e.run env back) (on a j) (on e.po_Fr.o k) =
      if a = e.po_Bk.i then (if j = k then env.cos θ else if j = k.flip then
        k.pol.pick (-(back * env.sin θ)) (back * env.sin θ) else 0) else 0 := by
    intro a j hj k
    have h := (run_total hA e (x := fun n => if n = on a j then (1 : F) else 0) (back := back) hq
      (amp_within (cs := []) a _ (hF ▸ hn) (hF ▸ hj)) (amp_within (cs := []) a _ (hB ▸ hn) (hB ▸ hj)) hθ k).2
    refine h.trans ?_
    simp only [hon]
    have hne : k.flip ≠ k := by
      obtain ⟨o, f, p, q⟩ := k
      cases p <;> simp [OKey.flip, Pol.swap]
    by_cases ha : a = e.po_Bk.i
    · by_cases h1 : j = k
      · subst h1
        simp [ha, hne]
      · by_cases h2 : j = k.flip
        · subst h2
          simp [ha, hne, hne.symm]
        · simp [ha, h1, h2, Ne.symm h1, Ne.symm h2]
    · simp [ha, Ne.symm ha]
  have hpickneg : ∀ (p : Pol) (s : F), p.swap.pick (-s) s = -(p.pick (-s) s) := by
    intro p s
    cases p <;> simp [Pol.pick, Pol.swap]
  have hpicksq : ∀ (p : Pol) (s : F), p.pick (-s) s * p.pick (-s) s = s * s := by
    intro p s
    cases p <;> simp [Pol.pick]
  have hpickstar : ∀ (p : Pol) (s : F), star s = s → star (p.pick (-s) s) = p.pick (-s) s := by
    intro p s hs
    cases p <;> simp [Pol.pick, hs]
  have hrow : ∀ s : F, star s = s → env.cos θ * env.cos θ + s * s = 1 → ∀ k ∈ ks, ∀ k' ∈ ks,
      (ks.map (fun j => (if j = k then env.cos θ else if j = k.flip then k.pol.pick (-s) s else 0) *
        star (if j = k' then env.cos θ else if j = k'.flip then k'.pol.pick (-s) s else 0))).sum = if k = k' then 1 else 0 := by
    intro s hs hcs k hk k' hk'
    have hne : ∀ k : OKey O K, k.flip ≠ k := by
      rintro ⟨o, f, p, q⟩
      cases p <;> simp [OKey.flip, Pol.swap]
    rw [← List.sum_toFinset _ hn]
    have hsub : ({k, k.flip} : Finset (OKey O K)) ⊆ ks.toFinset := by
      intro j hj
      rw [Finset.mem_insert, Finset.mem_singleton] at hj
      rcases hj with rfl | rfl
      · exact List.mem_toFinset.2 hk
      · exact List.mem_toFinset.2 (hflip k hk)
    rw [← Finset.sum_subset hsub, Finset.sum_pair (Ne.symm (hne k))]
    · by_cases h1 : k = k'
      · subst h1
        rw [if_pos rfl, if_pos rfl, if_neg (hne k), if_pos rfl, hcs', hpickstar _ _ hs, hpicksq, hcs]
      · by_cases h2 : k = k'.flip
        · subst h2
          rw [OKey.flip_flip, if_pos rfl, if_neg (hne k'), if_pos rfl, if_neg (Ne.symm (hne k')), if_pos rfl, if_pos rfl,
            if_neg (hne k'), hcs', hpickstar _ _ hs, show k'.flip.pol = k'.pol.swap from rfl, hpickneg]
          ring
        · have h3 : k.flip ≠ k' := fun h => h2 (by rw [← h, k.flip_flip])
          have h4 : k.flip ≠ k'.flip := fun h => h1 (by rw [← k.flip_flip, h, k'.flip_flip])
          rw [if_neg h1, if_neg h1, if_neg h2, if_neg h3, if_neg h4, star_zero, mul_zero, mul_zero, add_zero]
    · intro j _ hj
      rw [Finset.mem_insert, Finset.mem_singleton, not_or] at hj
      rw [if_neg hj.1, if_neg hj.2, zero_mul]
  refine ⟨?_, ?_, ?_⟩
  · have hflip' : ∀ k ∈ ks, ∀ p, ({ k with pol := p } : OKey O K) ∈ ks := by
      rintro ⟨o, f, p0, q⟩ hk p
      by_cases h : p0 = p
      · subst h
        exact hk
      · have := hflip _ hk
        have h2 : p = p0.swap := by cases p0 <;> cases p <;> simp [Pol.swap] at h ⊢
        rw [h2]
        exact this
    have hrk : ∀ (a b : P) (u s : F), ∀ k ∈ ks, ∀ c ∈ rotate_key a b k u s,
        ∃ k ∈ ks, ∃ k' ∈ ks, ∃ v : F, c = .edge (on a k) (on b k') v ∧ k'.opt = k.opt := by
      rintro a b u s ⟨o, f, p, q⟩ hk c hc
      cases p
      · change c ∈ [Coupling.edge _ _ _, Coupling.edge _ _ _] at hc
        simp only [List.mem_cons, List.not_mem_nil, or_false] at hc
        rcases hc with rfl | rfl
        · exact ⟨_, hk, _, hk, _, rfl, rfl⟩
        · exact ⟨_, hk, _, hflip' _ hk .P, _, rfl, rfl⟩
      · change c ∈ [Coupling.edge _ _ _, Coupling.edge _ _ _] at hc
        simp only [List.mem_cons, List.not_mem_nil, or_false] at hc
        rcases hc with rfl | rfl
        · exact ⟨_, hk, _, hk, _, rfl, rfl⟩
        · exact ⟨_, hk, _, hflip' _ hk .S, _, rfl, rfl⟩
    have hqk : ∀ (a b : P) (s : F), ∀ k ∈ ks, ∀ c ∈ quarter_key a b k s,
        ∃ k ∈ ks, ∃ k' ∈ ks, ∃ v : F, c = .edge (on a k) (on b k') v ∧ k'.opt = k.opt := by
      rintro a b s ⟨o, f, p, q⟩ hk c hc
      cases p
      · obtain rfl := List.mem_singleton.1 hc
        exact ⟨_, hk, _, hflip' _ hk .P, _, rfl, rfl⟩
      · obtain rfl := List.mem_singleton.1 hc
        exact ⟨_, hk, _, hflip' _ hk .S, _, rfl, rfl⟩
    intro c hc
    unfold Rotator.run at hc
    dsimp only at hc
    by_cases c1 : e.rotate_deg = 0 ∨ e.rotate_deg = 180 ∨ e.rotate_deg = -180
    · rw [if_pos c1, List.mem_flatMap] at hc
      obtain ⟨pq, hpq, hc⟩ := hc
      obtain ⟨k, hk, rfl⟩ := List.mem_map.1 hc
      simp only [List.mem_cons, List.not_mem_nil, or_false] at hpq
      rcases hpq with rfl | rfl
      · exact ⟨_, by simp, e.po_Bk.o, by simp, k, hF ▸ hk, k, hF ▸ hk, _, rfl, rfl⟩
      · exact ⟨_, by simp, e.po_Fr.o, by simp, k, hB ▸ hk, k, hB ▸ hk, _, rfl, rfl⟩
    rw [if_neg c1] at hc
    by_cases c2 : e.rotate_deg = 90 ∨ e.rotate_deg = -90 ∨ e.rotate_deg = 270 ∨ e.rotate_deg = -270
    · rw [if_pos c2, List.mem_append, List.mem_flatMap, List.mem_flatMap, hF, hB] at hc
      rcases hc with ⟨k, hk, hc⟩ | ⟨k, hk, hc⟩
      · exact ⟨e.po_Fr.i, by simp, e.po_Bk.o, by simp, hqk _ _ _ k hk c hc⟩
      · exact ⟨e.po_Bk.i, by simp, e.po_Fr.o, by simp, hqk _ _ _ k hk c hc⟩
    · rw [if_neg c2, List.mem_append, List.mem_flatMap, List.mem_flatMap, hF, hB] at hc
      rcases hc with ⟨k, hk, hc⟩ | ⟨k, hk, hc⟩
      · exact ⟨e.po_Fr.i, by simp, e.po_Bk.o, by simp, hrk _ _ _ _ k hk c hc⟩
      · exact ⟨e.po_Bk.i, by simp, e.po_Fr.o, by simp, hrk _ _ _ _ k hk c hc⟩
  · intro b hb b' hb' k hk k' hk'
    have hs1 := hrow (env.sin θ) hss' hsq k hk k' hk'
    have hs2 := hrow (back * env.sin θ) (by rw [star_mul', hbs, hss']) (by linear_combination hsq + hb2 * env.sin θ * env.sin θ)
      k hk k' hk'
    have hz : ∀ v : F, (ks.map (fun _ => (0 : F))).sum = 0 := fun _ => by simp
    have e1 : ∀ a b b' (f : OKey O K → F), (∀ j ∈ ks, amp (e.run env back) (on a j) (on b k) *
        star (amp (e.run env back) (on a j) (on b' k')) = f j) → (ks.map (fun j => amp (e.run env back) (on a j) (on b k) *
        star (amp (e.run env back) (on a j) (on b' k')))).sum = (ks.map f).sum :=
      fun a b b' f hf => congrArg List.sum (List.map_congr_left hf)
    rw [List.map_cons, List.map_cons, List.map_nil, List.sum_cons, List.sum_cons, List.sum_nil, add_zero]
    simp only [List.mem_cons, List.not_mem_nil, or_false] at hb hb'
    rcases hb with rfl | rfl <;> rcases hb' with rfl | rfl
    · rw [e1 e.po_Fr.i e.po_Fr.o e.po_Fr.o (fun _ => 0) (fun j hj => by rw [hFr _ j hj, if_neg hp, zero_mul]), hz 0, zero_add,
        e1 e.po_Bk.i e.po_Fr.o e.po_Fr.o _ (fun j hj => by rw [hFr _ j hj, hFr _ j hj, if_pos rfl, if_pos rfl]), hs2]
      simp
    · rw [e1 e.po_Fr.i e.po_Fr.o e.po_Bk.o (fun _ => 0) (fun j hj => by rw [hFr _ j hj, if_neg hp, zero_mul]), hz 0, zero_add,
        e1 e.po_Bk.i e.po_Fr.o e.po_Bk.o (fun _ => 0) (fun j hj => by
          rw [hBk _ j hj, if_neg (Ne.symm hp), star_zero, mul_zero]), hz 0, if_neg (fun h => hq h.1)]
    · rw [e1 e.po_Fr.i e.po_Bk.o e.po_Fr.o (fun _ => 0) (fun j hj => by rw [hFr _ j hj, if_neg hp, star_zero, mul_zero]), hz 0,
        zero_add, e1 e.po_Bk.i e.po_Bk.o e.po_Fr.o (fun _ => 0) (fun j hj => by
          rw [hBk _ j hj, if_neg (Ne.symm hp), zero_mul]), hz 0, if_neg (fun h => hq h.1.symm)]
    · rw [e1 e.po_Bk.i e.po_Bk.o e.po_Bk.o (fun _ => 0) (fun j hj => by rw [hBk _ j hj, if_neg (Ne.symm hp), zero_mul]), hz 0,
        add_zero, e1 e.po_Fr.i e.po_Bk.o e.po_Bk.o _ (fun j hj => by rw [hBk _ j hj, hBk _ j hj, if_pos rfl, if_pos rfl]), hs1]
      simp
  · intro a _ b hb k hk k' hk'
    have hcj : ∀ k k' : OKey O K, (k.conj = k'.conj) ↔ (k = k') := fun k k' =>
      ⟨fun h => by rw [← k.conj_conj, h, k'.conj_conj], fun h => by rw [h]⟩
    have hfc : ∀ k : OKey O K, k.conj.flip = k.flip.conj := fun k => rfl
    change amp _ (on a k.conj) (on b k'.conj) = star (amp _ (on a k) (on b k'))
    simp only [List.mem_cons, List.not_mem_nil, or_false] at hb
    rcases hb with rfl | rfl
    · rw [hFr a k hk, hFr a _ (hconj k hk), hfc]
      simp only [hcj]
      rw [show k'.conj.pol = k'.pol from rfl]
      split_ifs
      · rw [hcs']
      · rw [hpickstar _ _ (by rw [star_mul', hbs, hss'])]
      · rw [star_zero]
      · rw [star_zero]
    · rw [hBk a k hk, hBk a _ (hconj k hk), hfc]
      simp only [hcj]
      rw [show k'.conj.pol = k'.pol from rfl]
      split_ifs
      · rw [hcs']
      · rw [hpickstar _ _ hss']
      · rw [star_zero]
      · rw [star_zero]

/-! ## circulators -/

/-- **C86**: circulators keep the commutators. -/
theorem C86_circulator (hn : ks.Nodup) (hconj : ∀ k ∈ ks, k.conj ∈ ks) {l : List (Port P)} (ho : (l.map Port.o).Nodup)
    (hi : (l.map Port.i).Nodup) (hk : ∀ p ∈ l, env.okeys p.i = ks) :
    Passive ks (circulator_setup env l) (l.map Port.i) (l.map Port.o) := by
  have hlen : ∀ i, i < l.length → (i + 1) % l.length < l.length := fun j hj => Nat.mod_lt _ (by omega)
  have hamp : ∀ (i : ℕ) (h : i < l.length) (a : P), ∀ k ∈ ks, amp (circulator_setup env l) (on a k)
      (on (l[(i + 1) % l.length]'(hlen i h)).o k) = if l[i].i = a then 1 else 0 := by
    intro i h a k hkk
    refine (C76_next ho (x := fun n => if n = on a k then (1 : F) else 0) (fun p hp => amp_within (cs := []) a _ (hk p hp ▸ hn)
      (hk p hp ▸ hkk)) i h k).trans ?_
    simp
  have hpre : ∀ b ∈ l.map Port.o, ∃ i, ∃ h : i < l.length, b = (l[(i + 1) % l.length]'(hlen i h)).o := by
    intro b hb
    obtain ⟨p, hp, rfl⟩ := List.mem_map.1 hb
    obtain ⟨j, hj, rfl⟩ := List.getElem_of_mem hp
    rcases Nat.eq_zero_or_pos j with h0 | h0
    · refine ⟨l.length - 1, by omega, ?_⟩
      have : (l.length - 1 + 1) % l.length = j := by rw [Nat.sub_add_cancel (by omega), Nat.mod_self, h0]
      simp only [this]
    · refine ⟨j - 1, by omega, ?_⟩
      have : (j - 1 + 1) % l.length = j := by rw [Nat.sub_add_cancel (by omega), Nat.mod_eq_of_lt hj]
      simp only [this]
  have oinj : ∀ a b (ha : a < l.length) (hb : b < l.length), l[a].o = l[b].o → a = b := by
    intro a b ha hb h
    have h1 : (l.map Port.o)[a]'(by simpa using ha) = (l.map Port.o)[b]'(by simpa using hb) := by simpa using h
    exact (List.Nodup.getElem_inj_iff ho).1 h1
  have iinj : ∀ a b (ha : a < l.length) (hb : b < l.length), l[a].i = l[b].i → a = b := by
    intro a b ha hb h
    have h1 : (l.map Port.i)[a]'(by simpa using ha) = (l.map Port.i)[b]'(by simpa using hb) := by simpa using h
    exact (List.Nodup.getElem_inj_iff hi).1 h1
  have hsucc : ∀ a b, a < l.length → b < l.length → (a + 1) % l.length = (b + 1) % l.length → a = b := by
    intro a b ha hb h
    by_cases h1 : a + 1 < l.length
    · by_cases h2 : b + 1 < l.length
      · rw [Nat.mod_eq_of_lt h1, Nat.mod_eq_of_lt h2] at h
        omega
      · rw [Nat.mod_eq_of_lt h1, show b + 1 = l.length by omega, Nat.mod_self] at h
        omega
    · by_cases h2 : b + 1 < l.length
      · rw [Nat.mod_eq_of_lt h2, show a + 1 = l.length by omega, Nat.mod_self] at h
        omega
      · omega
  apply Passive.of_keeping hn
  · intro c hc
    unfold circulator_setup at hc
    obtain ⟨pi, hpi, hc⟩ := List.mem_flatMap.1 hc
    have hmem : pi.1 ∈ l := by
      have := List.mem_zipIdx hpi
      rw [this.2.2]
      exact List.getElem_mem _
    cases hnext : l[(pi.2 + 1) % l.length]? with
    | none =>
      rw [hnext] at hc
      cases hc
    | some nx =>
      rw [hnext] at hc
      obtain ⟨k, hkk, rfl⟩ := List.mem_map.1 hc
      exact ⟨pi.1.i, List.mem_map.2 ⟨_, hmem, rfl⟩, nx.o, List.mem_map.2 ⟨_, List.mem_of_getElem? hnext, rfl⟩, k,
        hk _ hmem ▸ hkk, 1, rfl⟩
  · intro b hb b' hb' k hkk
    obtain ⟨i, h, rfl⟩ := hpre b hb
    obtain ⟨i', h', rfl⟩ := hpre b' hb'
    simp only [hamp i h _ k hkk, hamp i' h' _ k hkk]
    rw [← List.sum_toFinset _ hi, Finset.sum_eq_single l[i].i]
    · rw [if_pos rfl, one_mul]
      by_cases hii : i' = i
      · subst hii
        simp
      · rw [if_neg (fun hh => hii (iinj _ _ h' h hh)), star_zero, if_neg]
        intro hh
        exact hii (hsucc _ _ h' h (oinj _ _ (hlen i' h') (hlen i h) hh.symm))
    · intro a _ ha
      rw [if_neg (Ne.symm ha), zero_mul]
    · intro hno
      exact absurd (List.mem_toFinset.2 (List.mem_map.2 ⟨l[i], List.getElem_mem _, rfl⟩)) hno
  · intro a _ b hb k hkk
    obtain ⟨i, h, rfl⟩ := hpre b hb
    rw [hamp i h a k hkk, hamp i h a _ (hconj k hkk)]
    split_ifs <;> simp

end Shot
