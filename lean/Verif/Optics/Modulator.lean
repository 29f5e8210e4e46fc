import Verif.Optics.Photodiode

/-!
# Modulators multiply the light by a function of the drive (C66)
-/

set_option linter.unusedSectionVars false

namespace Optics
open Py Inject Circuit
open Signal (Balanced wave)

variable {P O K F : Type} [DecidableEq P] [DecidableEq O] [DecidableEq K] [AddCommGroup K] [Field F] [StarRing F]
  [DecidableEq F]
variable (env : OEnv P O K F)

theorem light_add (e : K → F) (ks : List (OKey O K)) (y z : OKey O K → F) (md : O × Pol) (q : Quantum) :
    light e ks (fun k => y k + z k) md q = light e ks y md q + light e ks z md q := by
  unfold light
  rw [← Finset.sum_add_distrib]
  apply Finset.sum_congr rfl
  intro k _
  split_ifs
  · ring
  · ring

theorem light_zero (e : K → F) (ks : List (OKey O K)) (md : O × Pol) (q : Quantum) :
    light e ks (fun _ => (0 : F)) md q = 0 := by
  unfold light
  apply Finset.sum_eq_zero
  intro k _
  split_ifs
  · ring
  · rfl

theorem light_congr (e : K → F) (ks : List (OKey O K)) {y z : OKey O K → F} (md : O × Pol) (q : Quantum)
    (h : ∀ k ∈ ks, (k.opt, k.pol) = md → k.q = q → y k = z k) : light e ks y md q = light e ks z md q := by
  unfold light
  apply Finset.sum_congr rfl
  intro k hk
  split_ifs with h1
  · rw [h k (List.mem_toFinset.1 hk) h1.1 h1.2]
  · rfl

theorem light_sum {α : Type} (l : List α) (e : K → F) (ks : List (OKey O K)) (f : α → OKey O K → F) (md : O × Pol)
    (q : Quantum) : light e ks (fun k => (l.map (fun a => f a k)).sum) md q = (l.map (fun a => light e ks (f a) md q)).sum := by
  induction l with
  | nil => exact light_zero e ks md q
  | cons a l ih =>
    rw [List.map_cons, List.sum_cons, ← ih, ← light_add]
    rfl

/-- a single amplitude -/
theorem light_single (e : K → F) {ks : List (OKey O K)} {j : OKey O K} (hj : j ∈ ks) (v : F) (md : O × Pol)
    (q : Quantum) : light e ks (fun k => if j = k then v else 0) md q =
      if (j.opt, j.pol) = md ∧ j.q = q then v * e (shift q j.cls) else 0 := by
  unfold light
  rw [Finset.sum_eq_single j]
  · dsimp only
    rw [if_pos rfl]
    rfl
  · intro k _ hk
    dsimp only
    rw [if_neg (Ne.symm hk), zero_mul, ite_self]
  · intro h
    exact absurd (List.mem_toFinset.2 hj) h

/-- The light that one input key sends to the output. -/
theorem fill_light {e : K → F} (he : ∀ k l, e (k + l) = e k * e l) (m : Mod P F) (k : OKey O K) {pto : Port P} {inp : P}
    (hp : m.ptoOpt = some pto) (hi : m.in_port_classical = some inp) (hb : Balanced (env.skeys inp))
    (ho : ∀ p, m.out_port_classical = some p → Balanced (env.skeys p)) {outs : List (OKey O K)}
    (hout : k ∈ outs) (houts : ∀ lk ∈ env.skeys inp, env.reject (k.cls + shift k.q lk) = false →
      k.at (k.cls + shift k.q lk) ∈ outs) {cs : List (Coupling P (Key O K) F)} (h : m.fill env k = .ok cs)
    (x : P × Key O K → F) (md : O × Pol) (q : Quantum) {std cl : F}
    (hstd : q.pick m.Stdcplg m.StdcplgC = std)
    (hcl : q.pick m.CLcplg m.CLcplgC = cl) :
    light e outs (fun j => total cs x (on pto.o j)) md q =
      if (k.opt, k.pol) = md ∧ k.q = q then
        std * x (on m.pfrom.i k) * e (shift q k.cls) *
          ((if m.include_through_coupling = true then 1 else 0) + cl * ((env.skeys inp).map (fun lk =>
            if -lk = lk ∨ env.reject (k.cls + shift q lk) = true then 0 else x (sn inp lk) * e lk)).sum)
      else 0 := by
  obtain ⟨a, c, ha, hc, htot⟩ := fill_total env m k h
  have h1 : light e outs (fun j => total cs x (on pto.o j)) md q =
      light e outs (fun j => ((env.skeys inp).map
        (fun lk => if -lk = lk then 0 else m.clTerm env k pto.o inp x (on pto.o j) lk)).sum) md q +
      light e outs (fun j => total (m.through k) x (on pto.o j)) md q := by
    rw [← light_add]
    apply light_congr
    intro j _ _ _
    rw [htot, ba_opt env m k hc ho, add_zero, cl_total env m k hp hi hb ha]
  have hnode : ∀ u v : OKey O K, (on pto.o u = on pto.o v) ↔ u = v := by
    intro u v
    constructor
    · intro h
      injection h with _ h
      injection h
    · rintro rfl
      rfl
  have h2 : light e outs (fun j => total (m.through k) x (on pto.o j)) md q =
      if (k.opt, k.pol) = md ∧ k.q = q then
        std * x (on m.pfrom.i k) * e (shift q k.cls) * (if m.include_through_coupling = true then 1 else 0) else 0 := by
    by_cases hth : m.include_through_coupling = true
    · rw [if_pos hth]
      rw [light_congr e outs md q (z := fun j => if k = j then
        k.q.pick m.Stdcplg m.StdcplgC * x (on m.pfrom.i k) else 0)]
      · rw [light_single e hout]
        by_cases hk : (k.opt, k.pol) = md ∧ k.q = q
        · rw [if_pos hk, if_pos hk, hk.2, mul_one, ← hstd]
        · rw [if_neg hk, if_neg hk]
      · intro j _ _ _
        rw [through_total m k hp hth]
        unfold Mod.throughTerm
        simp only [hnode]
    · rw [if_neg hth, mul_zero, ite_self]
      unfold Mod.through
      rw [hp]
      dsimp only
      rw [if_neg hth]
      exact light_zero e outs md q
  have h3 : light e outs (fun j => ((env.skeys inp).map
        (fun lk => if -lk = lk then 0 else m.clTerm env k pto.o inp x (on pto.o j) lk)).sum) md q =
      if (k.opt, k.pol) = md ∧ k.q = q then
        std * x (on m.pfrom.i k) * e (shift q k.cls) * (cl * ((env.skeys inp).map (fun lk =>
            if -lk = lk ∨ env.reject (k.cls + shift q lk) = true then 0 else x (sn inp lk) * e lk)).sum) else 0 := by
    rw [light_sum]
    have h4 : ∀ lk ∈ env.skeys inp,
        light e outs (fun j => if -lk = lk then 0 else m.clTerm env k pto.o inp x (on pto.o j) lk) md q =
        if (k.opt, k.pol) = md ∧ k.q = q then
          std * x (on m.pfrom.i k) * e (shift q k.cls) * cl *
            (if -lk = lk ∨ env.reject (k.cls + shift q lk) = true then 0 else x (sn inp lk) * e lk) else 0 := by
      intro lk hlk
      by_cases hself : -lk = lk
      · simp only [if_pos hself, if_pos (Or.inl hself), mul_zero, ite_self]
        exact light_zero e outs md q
      · simp only [if_neg hself]
        by_cases hrej : env.reject (k.cls + shift k.q lk) = true
        · have hz : ∀ j, m.clTerm env k pto.o inp x (on pto.o j) lk = 0 := by
            intro j
            unfold Mod.clTerm
            rw [if_neg]
            rw [hrej]
            exact fun h => Bool.noConfusion h.1
          simp only [hz]
          rw [light_zero]
          split_ifs with hk hor
          · ring
          · exact absurd (Or.inr (hk.2 ▸ hrej)) hor
          · rfl
        · have hrej' : env.reject (k.cls + shift k.q lk) = false := by simpa using hrej
          have hz : ∀ j, m.clTerm env k pto.o inp x (on pto.o j) lk =
              if k.at (k.cls + shift k.q lk) = j then
                k.q.pick (m.Stdcplg * m.CLcplg) (m.StdcplgC * m.CLcplgC) *
                  x (on m.pfrom.i k) * x (sn inp lk) else 0 := by
            intro j
            unfold Mod.clTerm
            simp only [hnode, hrej', true_and]
          simp only [hz]
          rw [light_single e (houts lk hlk hrej')]
          show (if (k.opt, k.pol) = md ∧ k.q = q then _ else _) = _
          by_cases hk : (k.opt, k.pol) = md ∧ k.q = q
          · rw [if_pos hk, if_pos hk]
            rw [if_neg (by rw [← hk.2]; exact fun h => h.elim hself hrej)]
            have hsh : e (shift q (k.at (k.cls + shift k.q lk)).cls) = e (shift q k.cls) * e lk := by
              show e (shift q (k.cls + shift k.q lk)) = _
              rw [hk.2]
              cases q with
              | lower => exact he _ _
              | raise =>
                show e (-(k.cls + -lk)) = e (-k.cls) * e lk
                rw [neg_add, neg_neg, he]
            rw [hsh, hk.2]
            rw [← hstd, ← hcl]
            cases q <;> (simp only [Quantum.pick]; ring)
          · rw [if_neg hk, if_neg hk]
    rw [List.map_congr_left h4]
    by_cases hk : (k.opt, k.pol) = md ∧ k.q = q
    · simp only [if_pos hk]
      rw [sum_mul_left]
      ring
    · simp only [if_neg hk]
      apply List.sum_eq_zero
      intro v hv
      obtain ⟨_, _, rfl⟩ := List.mem_map.1 hv
      rfl
  rw [h1, h2, h3]
  split_ifs
  · ring
  · ring
  · ring

/-- The light at the output of a modulator that is made of couplings for each key `k` of the list `ks`. -/
theorem keys_light {e : K → F} (he : ∀ k l, e (k + l) = e k * e l) {ks outs : List (OKey O K)} (hn : ks.Nodup)
    (m : OKey O K → Mod P F) (p : P) {pto : Port P} {inp : P} (hpf : ∀ k, (m k).pfrom.i = p)
    (hp : ∀ k, (m k).ptoOpt = some pto) (hi : ∀ k, (m k).in_port_classical = some inp) (hb : Balanced (env.skeys inp))
    (ho : ∀ k p, (m k).out_port_classical = some p → Balanced (env.skeys p))
    (hth : Bool) (hthr : ∀ k, (m k).include_through_coupling = hth)
    (hks : ∀ k ∈ ks, k ∈ outs)
    (houts : ∀ k ∈ ks, ∀ lk ∈ env.skeys inp, env.reject (k.cls + shift k.q lk) = false ∧ k.at (k.cls + shift k.q lk) ∈ outs)
    {cs : List (Coupling P (Key O K) F)} (h : blocks (ks.map (fun k => (m k).fill env k)) = .ok cs)
    (x : P × Key O K → F) (md : O × Pol) (q : Quantum) {std cl : F}
    (hstd : ∀ k, (k.opt, k.pol) = md → q.pick (m k).Stdcplg (m k).StdcplgC = std)
    (hcl : ∀ k, (k.opt, k.pol) = md → q.pick (m k).CLcplg (m k).CLcplgC = cl) :
    light e outs (fun j => total cs x (on pto.o j)) md q = std * light e ks (fun k => x (on p k)) md q *
      ((if hth = true then 1 else 0) + cl * ((env.skeys inp).map (fun lk =>
        if -lk = lk then 0 else x (sn inp lk) * e lk)).sum) := by
  classical
  have hok := (blocks_sum h).1
  have h1 : ∀ (r : P × Key O K), total cs x r =
      (ks.map (fun k => match (m k).fill env k with | .ok ds => total ds x r | .error _ => 0)).sum := by
    intro r
    apply blocks_map h
    intro k _ ds hd
    rw [hd]
  simp only [h1]
  rw [light_sum]
  have h2 : ∀ k ∈ ks, light e outs (fun j => match (m k).fill env k with
      | .ok ds => total ds x (on pto.o j) | .error _ => 0) md q =
      if (k.opt, k.pol) = md ∧ k.q = q then std * (x (on p k) * e (shift q k.cls)) *
        ((if hth = true then 1 else 0) + cl * ((env.skeys inp).map (fun lk =>
          if -lk = lk then 0 else x (sn inp lk) * e lk)).sum) else 0 := by
    intro k hk
    obtain ⟨ds, hd⟩ := hok _ (List.mem_map_of_mem hk)
    rw [hd]
    dsimp only
    by_cases hmd : (k.opt, k.pol) = md ∧ k.q = q
    · rw [fill_light env he (m k) k (hp k) (hi k) hb (ho k) (hks k hk) (fun lk hlk _ => (houts k hk lk hlk).2) hd x md q
        (hstd k hmd.1) (hcl k hmd.1), if_pos hmd, if_pos hmd, hpf, hthr, mul_assoc std]
      congr 3
      congr 1
      apply List.map_congr_left
      intro lk hlk
      have : ¬ env.reject (k.cls + shift q lk) = true := by
        rw [← hmd.2, (houts k hk lk hlk).1]
        exact Bool.false_ne_true
      simp only [this, or_false, Bool.false_eq_true]
    · rw [fill_light env he (m k) k (hp k) (hi k) hb (ho k) (hks k hk) (fun lk hlk _ => (houts k hk lk hlk).2) hd x md q
        rfl rfl, if_neg hmd, if_neg hmd]
  rw [List.map_congr_left h2]
  unfold light
  rw [List.sum_toFinset _ hn]
  generalize ((if hth = true then 1 else 0) + cl * ((env.skeys inp).map (fun lk =>
    if -lk = lk then 0 else x (sn inp lk) * e lk)).sum) = A
  rw [mul_right_comm, ← sum_mul_left]
  congr 1
  apply List.map_congr_left
  intro k _
  split_ifs
  · show std * (x (on p k) * e (shift q k.cls)) * A = std * A * (x (on p k) * e (shift q k.cls))
    ring
  · ring

/-- the alternating part of a signal -/
theorem drive_wave (e : K → F) (ht : ∀ k : K, -k = k → k = 0) (ks : List K) (y : K → F) :
    (ks.map (fun lk => if -lk = lk then 0 else y lk * e lk)).sum / 2 =
      wave e ks (fun lk => if lk = 0 then 0 else y lk) := by
  unfold wave
  rw [div_eq_inv_mul, ← sum_mul_left]
  congr 1
  apply List.map_congr_left
  intro k _
  dsimp only
  by_cases hk : k = 0
  · rw [if_pos (by rw [hk, neg_zero]), if_pos hk, if_pos hk, mul_zero]
  · rw [if_neg (fun h => hk (ht k h)), if_neg hk, if_neg hk]
    ring

/-- What a modulator that is driven at `Drv` needs of the keys: those of the output `q` contain those of the input `p` and
all sidebands, none of which is rejected. -/
def Sidebands (p q Drv : P) : Prop :=
  (env.okeys p).Nodup ∧ (env.okeys q).Nodup ∧ (∀ k ∈ env.okeys p, k ∈ env.okeys q) ∧
  ∀ k ∈ env.okeys p, ∀ lk ∈ env.skeys Drv, env.reject (k.cls + lk) = false ∧
    ({ k with cls := k.cls + lk } : OKey O K) ∈ env.okeys q

theorem Sidebands.shifted {p q Drv : P} (h : Sidebands env p q Drv) (hb : Balanced (env.skeys Drv)) :
    ∀ k ∈ env.okeys p, ∀ lk ∈ env.skeys Drv, env.reject (k.cls + shift k.q lk) = false ∧
      k.at (k.cls + shift k.q lk) ∈ env.okeys q := by
  intro k hk lk hlk
  cases hq : k.q with
  | lower => exact h.2.2.2 k hk lk hlk
  | raise => exact h.2.2.2 k hk (-lk) (hb.2 lk hlk)

/-- couplings for the two directions of a modulator -/
theorem two_way {po_Fr po_Bk : Port P} (hne : po_Fr.o ≠ po_Bk.o) {Drv : P} (hb : Balanced (env.skeys Drv))
    (m : Port P → Port P → Mod P F) (hp : ∀ a b, (m a b).ptoOpt = some b)
    (hi : ∀ a b, (m a b).in_port_classical = some Drv)
    (ho : ∀ a b p, (m a b).out_port_classical = some p → Balanced (env.skeys p)) {cs : List (Coupling P (Key O K) F)}
    (h : blocks ([(po_Fr, po_Bk), (po_Bk, po_Fr)].map (fun pq =>
      blocks ((env.okeys pq.1.i).map (fun k => (m pq.1 pq.2).fill env k)))) = .ok cs) :
    ∀ pq ∈ [(po_Fr, po_Bk), (po_Bk, po_Fr)], ∃ ds,
      blocks ((env.okeys pq.1.i).map (fun k => (m pq.1 pq.2).fill env k)) = .ok ds ∧
      ∀ x k, total cs x (on pq.2.o k) = total ds x (on pq.2.o k) := by
  obtain ⟨c, ds, hc, h1, rfl⟩ := blocks_cons h
  obtain ⟨d, ds', hd, h2, rfl⟩ := blocks_cons h1
  obtain rfl := blocks_nil h2
  have zero : ∀ (a b : Port P) (u : List (Coupling P (Key O K) F)),
      blocks ((env.okeys a.i).map (fun k => (m a b).fill env k)) = .ok u → ∀ r, b.o ≠ r → ∀ x k,
      total u x (on r k) = 0 := by
    intro a b u hu r hr x k
    rw [blocks_map hu (g := fun _ => 0)]
    · simp
    · intro j _ ds hds
      refine fill_elsewhere env (m a b) j hds ?_ (ho a b) x ?_ k
      · intro p hp'
        rw [hi] at hp'
        injection hp' with hp'
        exact hp' ▸ hb
      · intro pto hpto
        rw [hp] at hpto
        injection hpto with hpto
        exact hpto ▸ hr
  intro pq hpq
  simp only [List.mem_cons, List.not_mem_nil, or_false] at hpq
  rcases hpq with rfl | rfl
  · refine ⟨c, hc, fun x k => ?_⟩
    rw [total_append, total_append, total_nil, zero _ _ d hd _ hne, add_zero, add_zero]
  · refine ⟨d, hd, fun x k => ?_⟩
    rw [total_append, total_append, total_nil, zero _ _ c hc _ (Ne.symm hne), add_zero, zero_add]

/-- **C66.**  A phase modulator puts out the light it gets, times `1 + i m` with `m` the alternating part of the signal at
`Drv`: the phase modulation of the light to first order.  It does so in both directions and for the lowering fields; for the
raising fields it is `1 - i m`. -/
theorem C66_phase {e : K → F} (he : ∀ k l, e (k + l) = e k * e l) (ht : ∀ k : K, -k = k → k = 0)
    {po_Fr po_Bk : Port P} (hne : po_Fr.o ≠ po_Bk.o) {Drv BA : P} (hD : Balanced (env.skeys Drv))
    (hB : Balanced (env.skeys BA)) {cs : List (Coupling P (Key O K) F)} (h : pm_setup env po_Fr po_Bk Drv BA = .ok cs)
    (x : P × Key O K → F) (md : O × Pol) {p q : Port P} (hpq : (p, q) = (po_Fr, po_Bk) ∨ (p, q) = (po_Bk, po_Fr))
    (hS : Sidebands env p.i q.o Drv) :
    light e (env.okeys q.o) (fun k => (cs.map (fun c => c.into x (q.o, .opt k))).sum) md .lower =
      light e (env.okeys p.i) (fun k => x (p.i, .opt k)) md .lower *
        (1 + env.i * wave e (env.skeys Drv) (fun lk => if lk = 0 then 0 else x (Drv, .sig lk))) ∧
    light e (env.okeys q.o) (fun k => (cs.map (fun c => c.into x (q.o, .opt k))).sum) md .raise =
      light e (env.okeys p.i) (fun k => x (p.i, .opt k)) md .raise *
        (1 - env.i * wave e (env.skeys Drv) (fun lk => if lk = 0 then 0 else x (Drv, .sig lk))) := by
  obtain ⟨ds, hds, htot⟩ := two_way env hne hD (fun a b => ⟨a, some b, some Drv, some BA, 1, 1, env.i / 2, -env.i / 2,
    1 / env.c_m_s, 1 / env.c_m_s, true⟩) (fun _ _ => rfl) (fun _ _ => rfl) (by rintro _ _ p ⟨⟩; exact hB) h (p, q)
    (by simpa using hpq)
  have key := fun (Q : Quantum) (cl : F) (hcl) => keys_light env he (outs := env.okeys q.o) hS.1
    (fun _ => ⟨p, some q, some Drv, some BA, 1, 1, env.i / 2, -env.i / 2, 1 / env.c_m_s, 1 / env.c_m_s, true⟩) p.i
    (fun _ => rfl) (fun _ => rfl) (fun _ => rfl) hD (by rintro _ p ⟨⟩; exact hB) true (fun _ => rfl) hS.2.2.1
    (hS.shifted env hD) hds x md Q (std := 1) (cl := cl) (fun _ _ => by cases Q <;> rfl) hcl
  have h1 : ∀ Q, light e (env.okeys q.o) (fun k => (cs.map (fun c => c.into x (q.o, .opt k))).sum) md Q =
      light e (env.okeys q.o) (fun k => total ds x (on q.o k)) md Q := fun Q =>
    light_congr e _ md Q (fun k _ _ _ => htot x k)
  constructor
  · rw [h1, key .lower (env.i / 2) (fun _ _ => rfl), ← drive_wave e ht, if_pos rfl]
    ring
  · rw [h1, key .raise (-env.i / 2) (fun _ _ => rfl), ← drive_wave e ht, if_pos rfl]
    ring

/-- **C66.**  An amplitude modulator puts out the light it gets, times `1 + m` with `m` the alternating part of the signal
at `Drv`. -/
theorem C66_amplitude {e : K → F} (he : ∀ k l, e (k + l) = e k * e l) (ht : ∀ k : K, -k = k → k = 0)
    {po_Fr po_Bk : Port P} (hne : po_Fr.o ≠ po_Bk.o) {Drv BA : P} (hD : Balanced (env.skeys Drv))
    (hB : Balanced (env.skeys BA)) {cs : List (Coupling P (Key O K) F)} (h : am_setup env po_Fr po_Bk Drv BA = .ok cs)
    (x : P × Key O K → F) (md : O × Pol) {p q : Port P} (hpq : (p, q) = (po_Fr, po_Bk) ∨ (p, q) = (po_Bk, po_Fr))
    (hS : Sidebands env p.i q.o Drv) (Q : Quantum) :
    light e (env.okeys q.o) (fun k => (cs.map (fun c => c.into x (q.o, .opt k))).sum) md Q =
      light e (env.okeys p.i) (fun k => x (p.i, .opt k)) md Q *
        (1 + wave e (env.skeys Drv) (fun lk => if lk = 0 then 0 else x (Drv, .sig lk))) := by
  obtain ⟨ds, hds, htot⟩ := two_way env hne hD (fun a b => ⟨a, some b, some Drv, some BA, 1, 1, 1 / 2, 1 / 2,
    env.i / env.c_m_s, -env.i / env.c_m_s, true⟩) (fun _ _ => rfl) (fun _ _ => rfl) (by rintro _ _ p ⟨⟩; exact hB) h
    (p, q) (by simpa using hpq)
  have key := keys_light env he (outs := env.okeys q.o) hS.1
    (fun _ => ⟨p, some q, some Drv, some BA, 1, 1, 1 / 2, 1 / 2, env.i / env.c_m_s, -env.i / env.c_m_s, true⟩) p.i
    (fun _ => rfl) (fun _ => rfl) (fun _ => rfl) hD (by rintro _ p ⟨⟩; exact hB) true (fun _ => rfl) hS.2.2.1
    (hS.shifted env hD) hds x md Q (std := 1) (cl := 1 / 2) (fun _ _ => by cases Q <;> rfl) (fun _ _ => by cases Q <;> rfl)
  have h1 : light e (env.okeys q.o) (fun k => (cs.map (fun c => c.into x (q.o, .opt k))).sum) md Q =
      light e (env.okeys q.o) (fun k => total ds x (on q.o k)) md Q :=
    light_congr e _ md Q (fun k _ _ _ => htot x k)
  rw [h1, key, ← drive_wave e ht, if_pos rfl]
  ring

theorem blocks_pair {α : Type} {l : List α} {f g : α → Except Err (List (Coupling P (Key O K) F))}
    {cs : List (Coupling P (Key O K) F)} (h : blocks (l.map (fun a => blocks [f a, g a])) = .ok cs) :
    ∃ u v, blocks (l.map f) = .ok u ∧ blocks (l.map g) = .ok v ∧ ∀ x t, total cs x t = total u x t + total v x t := by
  induction l generalizing cs with
  | nil =>
    obtain rfl := blocks_nil h
    exact ⟨[], [], rfl, rfl, fun x t => by rw [total_nil, add_zero]⟩
  | cons a l ih =>
    obtain ⟨c, ds, hc, hd, rfl⟩ := blocks_cons h
    obtain ⟨u, v, hu, hv, huv⟩ := ih hd
    obtain ⟨c1, ds1, hc1, hd1, rfl⟩ := blocks_cons hc
    obtain ⟨c2, ds2, hc2, hd2, rfl⟩ := blocks_cons hd1
    obtain rfl := blocks_nil hd2
    refine ⟨c1 ++ u, c2 ++ v, ?_, ?_, fun x t => ?_⟩
    · rw [List.map_cons]
      unfold blocks
      rw [hc1, hu]
      rfl
    · rw [List.map_cons]
      unfold blocks
      rw [hc2, hv]
      rfl
    · simp only [total_append, huv, total_nil]
      ring

/-- **C66.**  A combined modulator multiplies the light by `1 + a + i m` with the signals `a` at the amplitude drive and `m`
at the phase drive (`1 + a - i m` for the raising fields). -/
theorem C66_both {e : K → F} (he : ∀ k l, e (k + l) = e k * e l) (ht : ∀ k : K, -k = k → k = 0)
    {po_Fr po_Bk : Port P} (hne : po_Fr.o ≠ po_Bk.o) {DrvAM DrvPM : P} (hA : Balanced (env.skeys DrvAM))
    (hP : Balanced (env.skeys DrvPM)) {cs : List (Coupling P (Key O K) F)}
    (h : ampm_setup env po_Fr po_Bk DrvAM DrvPM = .ok cs)
    (x : P × Key O K → F) (md : O × Pol) {p q : Port P} (hpq : (p, q) = (po_Fr, po_Bk) ∨ (p, q) = (po_Bk, po_Fr))
    (hSA : Sidebands env p.i q.o DrvAM) (hSP : Sidebands env p.i q.o DrvPM) :
    light e (env.okeys q.o) (fun k => (cs.map (fun c => c.into x (q.o, .opt k))).sum) md .lower =
      light e (env.okeys p.i) (fun k => x (p.i, .opt k)) md .lower *
        (1 + wave e (env.skeys DrvAM) (fun lk => if lk = 0 then 0 else x (DrvAM, .sig lk)) +
          env.i * wave e (env.skeys DrvPM) (fun lk => if lk = 0 then 0 else x (DrvPM, .sig lk))) ∧
    light e (env.okeys q.o) (fun k => (cs.map (fun c => c.into x (q.o, .opt k))).sum) md .raise =
      light e (env.okeys p.i) (fun k => x (p.i, .opt k)) md .raise *
        (1 + wave e (env.skeys DrvAM) (fun lk => if lk = 0 then 0 else x (DrvAM, .sig lk)) -
          env.i * wave e (env.skeys DrvPM) (fun lk => if lk = 0 then 0 else x (DrvPM, .sig lk))) := by
  obtain ⟨c, ds, hc, h1, rfl⟩ := blocks_cons h
  obtain ⟨d, ds', hd, h2, rfl⟩ := blocks_cons h1
  obtain rfl := blocks_nil h2
  set mP : Port P → Port P → Mod P F := fun a b => ⟨a, some b, some DrvPM, none, 1, 1, env.i / 2, -env.i / 2,
    1 / env.c_m_s, 1 / env.c_m_s, true⟩ with hmP
  set mA : Port P → Port P → Mod P F := fun a b => ⟨a, some b, some DrvAM, none, 1, 1, 1 / 2, 1 / 2,
    env.i / env.c_m_s, -env.i / env.c_m_s, false⟩ with hmA
  have zero : ∀ (a b : Port P) (m : Mod P F), m.ptoOpt = some b →
      (∀ p, m.in_port_classical = some p → Balanced (env.skeys p)) → m.out_port_classical = none →
      ∀ u, blocks ((env.okeys a.i).map (fun k => m.fill env k)) = .ok u → ∀ r, b.o ≠ r → ∀ k, total u x (on r k) = 0 := by
    intro a b m hp hi ho u hu r hr k
    rw [blocks_map hu (g := fun _ => 0)]
    · simp
    · intro j _ ds hds
      refine fill_elsewhere env m j hds hi ?_ x ?_ k
      · intro p hp'
        rw [ho] at hp'
        cases hp'
      · intro pto hpto
        rw [hp] at hpto
        injection hpto with hpto
        exact hpto ▸ hr
  have hdir : ∃ u v, blocks ((env.okeys p.i).map (fun k => (mP p q).fill env k)) = .ok u ∧
      blocks ((env.okeys p.i).map (fun k => (mA p q).fill env k)) = .ok v ∧
      ∀ k, total (c ++ (d ++ [])) x (on q.o k) = total u x (on q.o k) + total v x (on q.o k) := by
    obtain ⟨u1, v1, hu1, hv1, huv1⟩ := blocks_pair hc
    obtain ⟨u2, v2, hu2, hv2, huv2⟩ := blocks_pair hd
    rcases hpq with h | h
    · cases h
      refine ⟨u1, v1, hu1, hv1, fun k => ?_⟩
      rw [total_append, total_append, total_nil, huv1, huv2]
      rw [zero po_Bk po_Fr (mP po_Bk po_Fr) rfl (by rintro p ⟨⟩; exact hP) rfl u2 hu2 _ hne,
        zero po_Bk po_Fr (mA po_Bk po_Fr) rfl (by rintro p ⟨⟩; exact hA) rfl v2 hv2 _ hne]
      ring
    · cases h
      refine ⟨u2, v2, hu2, hv2, fun k => ?_⟩
      rw [total_append, total_append, total_nil, huv1, huv2]
      rw [zero po_Fr po_Bk (mP po_Fr po_Bk) rfl (by rintro p ⟨⟩; exact hP) rfl u1 hu1 _ (Ne.symm hne),
        zero po_Fr po_Bk (mA po_Fr po_Bk) rfl (by rintro p ⟨⟩; exact hA) rfl v1 hv1 _ (Ne.symm hne)]
      ring
  obtain ⟨u, v, hu, hv, huv⟩ := hdir
  have h1 : ∀ Q, light e (env.okeys q.o) (fun k => ((c ++ (d ++ [])).map (fun c => Coupling.into x (q.o, .opt k) c)).sum) md Q =
      light e (env.okeys q.o) (fun k => total u x (on q.o k)) md Q +
      light e (env.okeys q.o) (fun k => total v x (on q.o k)) md Q := by
    intro Q
    rw [← light_add]
    exact light_congr e _ md Q (fun k _ _ _ => huv k)
  have keyP := fun (Q : Quantum) (cl : F) (hcl) => keys_light env he (outs := env.okeys q.o) hSP.1 (fun _ => mP p q) p.i
    (fun _ => rfl) (fun _ => rfl) (fun _ => rfl) hP (by rintro _ p ⟨⟩) true (fun _ => rfl) hSP.2.2.1
    (hSP.shifted env hP) hu x md Q (std := 1) (cl := cl) (fun _ _ => by cases Q <;> rfl) hcl
  have keyA := fun (Q : Quantum) => keys_light env he (outs := env.okeys q.o) hSA.1 (fun _ => mA p q) p.i
    (fun _ => rfl) (fun _ => rfl) (fun _ => rfl) hA (by rintro _ p ⟨⟩) false (fun _ => rfl) hSA.2.2.1
    (hSA.shifted env hA) hv x md Q (std := 1) (cl := 1 / 2) (fun _ _ => by cases Q <;> rfl)
    (fun _ _ => by cases Q <;> rfl)
  constructor
  · rw [h1, keyP .lower (env.i / 2) (fun _ _ => rfl), keyA, ← drive_wave e ht, ← drive_wave e ht, if_pos rfl,
      if_neg Bool.false_ne_true]
    ring
  · rw [h1, keyP .raise (-env.i / 2) (fun _ _ => rfl), keyA, ← drive_wave e ht, ← drive_wave e ht, if_pos rfl,
      if_neg Bool.false_ne_true]
    ring

/-! ## example: a carrier and a drive at one frequency -/

/-- The carrier enters at frequency 0 and leaves with its sidebands. -/
noncomputable abbrev menv : OEnv ℕ Unit ℤ ℂ :=
  demo (fun p => if p = 0 ∨ p = 2 then keysAt [0] else keysAt [0, 1, -1]) (fun _ => [0, 1, -1]) (fun _ => false)

/-- what holds for the three modulators between the ports `⟨0, 1⟩` and `⟨2, 3⟩` with drives at 4 and 5 -/
example : ∃ cs ds es, pm_setup menv ⟨0, 1⟩ ⟨2, 3⟩ 4 5 = .ok cs ∧ am_setup menv ⟨0, 1⟩ ⟨2, 3⟩ 4 5 = .ok ds ∧
    ampm_setup menv ⟨0, 1⟩ ⟨2, 3⟩ 4 5 = .ok es ∧ (∀ k l, tick (k + l) = tick k * tick l) ∧
    (∀ k : ℤ, -k = k → k = 0) ∧ Balanced (menv.skeys 4) ∧ Balanced (menv.skeys 5) ∧
    Sidebands menv 0 3 4 ∧ Sidebands menv 2 1 4 ∧ Sidebands menv 0 3 5 ∧ Sidebands menv 2 1 5 := by
  have hb : ∀ p, Balanced (menv.skeys p) := fun _ => show Balanced [0, 1, -1] from ⟨by decide, by decide⟩
  have hfill : ∀ (m : Mod ℕ ℂ) k, ∃ cs, m.fill menv k = .ok cs := fun m k =>
    fill_ok _ _ _ (fun p _ => (hb p).2) (fun p _ => (hb p).2)
  have two : ∀ (l : List (Port ℕ × Port ℕ)) (f : Port ℕ × Port ℕ → OKey Unit ℤ → Except Err (List (Coupling ℕ (Key Unit ℤ) ℂ))),
      (∀ pq k, ∃ cs, f pq k = .ok cs) → ∃ cs, blocks (l.map (fun pq => blocks ((menv.okeys pq.1.i).map (f pq)))) = .ok cs := by
    intro l f hf
    apply blocks_ok
    intro b hb
    obtain ⟨pq, _, rfl⟩ := List.mem_map.1 hb
    apply blocks_ok
    intro b hb
    obtain ⟨k, _, rfl⟩ := List.mem_map.1 hb
    exact hf pq k
  obtain ⟨cs, hcs⟩ := two [(⟨0, 1⟩, ⟨2, 3⟩), (⟨2, 3⟩, ⟨0, 1⟩)] (fun pq => Mod.fill menv ⟨pq.1, some pq.2, some 4, some 5, 1, 1,
    menv.i / 2, -menv.i / 2, 1 / menv.c_m_s, 1 / menv.c_m_s, true⟩) (fun _ _ => hfill _ _)
  obtain ⟨ds, hds⟩ := two [(⟨0, 1⟩, ⟨2, 3⟩), (⟨2, 3⟩, ⟨0, 1⟩)] (fun pq => Mod.fill menv ⟨pq.1, some pq.2, some 4, some 5, 1, 1,
    1 / 2, 1 / 2, menv.i / menv.c_m_s, -menv.i / menv.c_m_s, true⟩) (fun _ _ => hfill _ _)
  have hes : ∃ es, ampm_setup menv ⟨0, 1⟩ ⟨2, 3⟩ 4 5 = .ok es := by
    refine two [(⟨0, 1⟩, ⟨2, 3⟩), (⟨2, 3⟩, ⟨0, 1⟩)] (fun pq k => blocks [_, _]) (fun pq k => ?_)
    apply blocks_ok
    intro b hb
    simp only [List.mem_cons, List.not_mem_nil, or_false] at hb
    rcases hb with rfl | rfl <;> exact hfill _ _
  obtain ⟨es, hes⟩ := hes
  have side : (keysAt [0]).Nodup ∧ (keysAt [0, 1, -1]).Nodup ∧ (∀ k ∈ keysAt [0], k ∈ keysAt [0, 1, -1]) ∧
      ∀ k ∈ keysAt [0], ∀ lk ∈ ([0, 1, -1] : List ℤ), false = false ∧
        ({ k with cls := k.cls + lk } : OKey Unit ℤ) ∈ keysAt [0, 1, -1] := by
    refine ⟨keysAt_nodup (by decide), keysAt_nodup (by decide), fun k hk => ?_, fun k hk lk hlk => ⟨rfl, ?_⟩⟩
    · rw [mem_keysAt] at hk ⊢
      simp only [List.mem_singleton] at hk
      rw [hk]
      decide
    · rw [mem_keysAt] at hk ⊢
      simp only [List.mem_singleton] at hk
      show k.cls + lk ∈ _
      rw [hk, zero_add]
      exact hlk
  exact ⟨cs, ds, es, hcs, hds, hes, tick_add, fun k h => by omega, hb 4, hb 5, side, side, side, side⟩

end Optics
