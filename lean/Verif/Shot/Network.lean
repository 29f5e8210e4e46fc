import Verif.Noise.Solver
import Verif.Optics.Reality
import Verif.Shot.Matrix
import Verif.Shot.Diode
import Verif.Shot.Elements

/-!
# C86: the shot noise of a photodiode behind elements which keep the commutators
-/

set_option linter.unusedSectionVars false

namespace Shot
open Py Inject Circuit Optics
open Signal (Balanced)

/-- `vacuum.py` l.54-58, `noise_2pt_expectation` of `OpticalVacuumFluctuation`: read off the first key, which is the key of
an optical port. -/
def vacuum_2pt {P O K F : Type} [Field F] (env : OEnv P O K F) (h_Js : F) : Key O K → F
  | .opt k => h_Js * env.c_m_s * env.iwavelen_m k.opt / 2
  | .sig _ => 0

section sums
variable {A B F : Type} [DecidableEq A] [DecidableEq B] [AddCommMonoid F]

/-- only the list which holds `b` contributes -/
theorem sum_single (l : List A) (f : A → F) (g : A → List B) (hn : (l.flatMap g).Nodup) {a : A} {b : B} (ha : a ∈ l)
    (hb : b ∈ g a) (hf : ∀ x ∈ l, b ∉ g x → f x = 0) : (l.map f).sum = f a := by
  induction l with
  | nil => cases ha
  | cons x l ih =>
    rw [List.flatMap_cons, List.nodup_append] at hn
    rw [List.map_cons, List.sum_cons]
    have hx : ∀ y ∈ l, b ∈ g x → b ∉ g y := fun y hy h1 h2 =>
      hn.2.2 b h1 b (List.mem_flatMap.2 ⟨y, hy, h2⟩) rfl
    by_cases hbx : b ∈ g x
    · have : (l.map f).sum = 0 := by
        apply List.sum_eq_zero
        intro z hz
        obtain ⟨y, hy, rfl⟩ := List.mem_map.1 hz
        exact hf y (List.mem_cons_of_mem _ hy) (hx y hy hbx)
      rw [this, add_zero]
      rcases List.mem_cons.1 ha with rfl | ha
      · rfl
      · exact absurd hb (hx a ha hbx)
    · rw [hf x List.mem_cons_self hbx, zero_add]
      rcases List.mem_cons.1 ha with rfl | ha
      · exact absurd hb hbx
      · exact ih hn.2.1 ha (fun y hy => hf y (List.mem_cons_of_mem _ hy))

/-- sums over all nodes are sums over the list of the ports and the list of the keys -/
theorem sum_nodes {P O K Kf : Type} [DecidableEq P] [Fintype P] [Fintype Kf] [DecidableEq O] [DecidableEq K] {κ : Kf → Key O K}
    (hκ : Function.Injective κ) {ks : List (OKey O K)} (hks : ks.Nodup) (hcov : ∀ j ∈ ks, ∃ k, κ k = .opt j)
    {ins : List P} (hins : ins.Nodup) (f : P × Key O K → F)
    (h0 : ∀ a x, ¬(a ∈ ins ∧ ∃ j ∈ ks, x = .opt j) → f (a, x) = 0) :
    ∑ d : P × Kf, f (d.1, κ d.2) = (ins.map (fun a => (ks.map (fun j => f (a, .opt j))).sum)).sum := by
  classical
  rw [Fintype.sum_prod_type]
  have h1 : ∀ a : P, ∑ k : Kf, f (a, κ k) = (ks.map (fun j => f (a, .opt j))).sum := by
    intro a
    have e1 : ∑ k : Kf, f (a, κ k) = ∑ x ∈ Finset.univ.image κ, f (a, x) :=
      (Finset.sum_image (f := fun x => f (a, x)) (s := Finset.univ) (g := κ) (fun _ _ _ _ h => hκ h)).symm
    have e2 : (ks.map (fun j => f (a, .opt j))).sum = ∑ x ∈ ks.toFinset.image Key.opt, f (a, x) := by
      rw [Finset.sum_image (f := fun x => f (a, x)) (fun _ _ _ _ h => by injection h), List.sum_toFinset _ hks]
    rw [e1, e2]
    symm
    apply Finset.sum_subset
    · intro x hx
      obtain ⟨j, hj, rfl⟩ := Finset.mem_image.1 hx
      obtain ⟨k, hk⟩ := hcov j (List.mem_toFinset.1 hj)
      exact Finset.mem_image.2 ⟨k, Finset.mem_univ _, hk⟩
    · intro x _ hx
      apply h0
      rintro ⟨-, j, hj, rfl⟩
      exact hx (Finset.mem_image.2 ⟨j, List.mem_toFinset.2 hj, rfl⟩)
  simp only [h1]
  rw [← List.sum_toFinset _ hins]
  symm
  apply Finset.sum_subset (Finset.subset_univ _)
  intro a _ ha
  apply List.sum_eq_zero
  intro z hz
  obtain ⟨j, _, rfl⟩ := List.mem_map.1 hz
  exact h0 _ _ (fun h => ha (List.mem_toFinset.2 h.1))

end sums

variable {P O K : Type} [DecidableEq P] [DecidableEq O] [DecidableEq K] [AddCommGroup K]

/-- an element: its couplings, the ports at which light enters and those at which it leaves -/
structure Part (P O K : Type) where
  cs : List (Coupling P (Key O K) ℂ)
  ins : List P
  outs : List P

/-- Elements, bonds among them, which keep the commutators, put together: no port is driven by two elements or drives two
elements, and the light entering an element comes from an element or from one of the ports `To`, which no element drives. -/
structure Bench (ks : List (OKey O K)) (parts : List (Part P O K)) (To : List P) : Prop where
  keys : ks.Nodup
  conj : ∀ k ∈ ks, ({ k with q := k.q.conj } : OKey O K) ∈ ks
  passive : ∀ p ∈ parts, Passive ks p.cs p.ins p.outs
  outs : (parts.flatMap Part.outs ++ To).Nodup
  ins : (parts.flatMap Part.ins).Nodup
  driven : ∀ a ∈ parts.flatMap Part.ins, a ∈ parts.flatMap Part.outs ++ To

variable {ks : List (OKey O K)} {parts : List (Part P O K)} {To : List P}

/-- an element couples its inputs to its outputs only -/
theorem Passive.support {cs : List (Coupling P (Key O K) ℂ)} {ins outs : List P} (h : Passive ks cs ins outs)
    {d t : P × Key O K} (hne : amp cs d t ≠ 0) :
    ∃ k ∈ ks, ∃ k' ∈ ks, d.1 ∈ ins ∧ t.1 ∈ outs ∧ d.2 = .opt k ∧ t.2 = .opt k' ∧ k'.opt = k.opt := by
  by_contra hcon
  apply hne
  apply amp_zero
  intro c hc
  obtain ⟨a, ha, b, hb, k, hk, k', hk', v, rfl, ho⟩ := h.edges c hc
  refine ⟨_, _, v, rfl, ?_⟩
  rintro ⟨rfl, rfl⟩
  exact hcon ⟨k, hk, k', hk', ha, hb, rfl, rfl, ho⟩

theorem Bench.one (hB : Bench ks parts To) {p : Part P O K} (hp : p ∈ parts) {d t : P × Key O K} (ht : t.1 ∈ p.outs) :
    (parts.map (fun p => amp p.cs d t)).sum = amp p.cs d t := by
  classical
  refine sum_single parts (fun p => amp p.cs d t) Part.outs (List.nodup_append.1 hB.outs).1 hp ht ?_
  intro x hx hb
  by_contra hne
  obtain ⟨k, _, k', _, _, h2, _⟩ := (hB.passive x hx).support hne
  exact hb h2

theorem Bench.none (hB : Bench ks parts To) {d t : P × Key O K} (ht : t.1 ∈ To) :
    (parts.map (fun p => amp p.cs d t)).sum = 0 := by
  apply List.sum_eq_zero
  intro z hz
  obtain ⟨p, hp, rfl⟩ := List.mem_map.1 hz
  by_contra hne
  obtain ⟨k, _, k', _, _, h2, _⟩ := (hB.passive p hp).support hne
  exact (List.nodup_append.1 hB.outs).2.2 _ (List.mem_flatMap.2 ⟨p, hp, h2⟩) _ ht rfl

theorem Bench.amp_conj (hB : Bench ks parts To) {p : Part P O K} (hp : p ∈ parts) {t : P × Key O K} (ht : t.1 ∈ p.outs)
    {k : OKey O K} (hk : k ∈ ks) (hkt : t.2 = .opt k) (d : P × Key O K) :
    amp p.cs (d.1, d.2.conj) (t.1, t.2.conj) = star (amp p.cs d t) := by
  obtain ⟨a, x⟩ := d
  obtain ⟨b, y⟩ := t
  dsimp only at ht hkt ⊢
  subst hkt
  by_cases hin : a ∈ p.ins ∧ ∃ j ∈ ks, x = .opt j
  · obtain ⟨ha, j, hj, rfl⟩ := hin
    exact (hB.passive p hp).conj a ha b ht j hj k hk
  · have h1 : amp p.cs (a, x) (b, .opt k) = 0 := by
      by_contra hne
      obtain ⟨j, hj, _, _, ha, _, hx, _⟩ := (hB.passive p hp).support hne
      exact hin ⟨ha, j, hj, hx⟩
    have h2 : amp p.cs (a, x.conj) (b, (Key.opt k).conj) = 0 := by
      by_contra hne
      obtain ⟨j, hj, _, _, ha, _, hx, _⟩ := (hB.passive p hp).support hne
      refine hin ⟨ha, _, hB.conj j hj, ?_⟩
      dsimp only at hx
      rw [← x.conj_conj, hx]
      rfl
    rw [h1, h2, star_zero]

variable [Fintype P] {Kf : Type} [Fintype Kf] [DecidableEq Kf] {κ : Kf → Key O K}

/-- the rows of the whole bench -/
theorem Bench.rows (hB : Bench ks parts To) (hκ : Function.Injective κ) (hcov : ∀ j ∈ ks, ∃ k, κ k = .opt j)
    {p p' : Part P O K} (hp : p ∈ parts) (hp' : p' ∈ parts) {b b' : P} (hb : b ∈ p.outs) (hb' : b' ∈ p'.outs)
    {k k' : OKey O K} (hk : k ∈ ks) (hk' : k' ∈ ks) :
    ∑ d : P × Kf, amp p.cs (d.1, κ d.2) (b, .opt k) * star (amp p'.cs (d.1, κ d.2) (b', .opt k')) =
      if b = b' ∧ k = k' then 1 else 0 := by
  classical
  have hins := List.nodup_flatMap.1 hB.ins
  have houts := List.nodup_flatMap.1 (List.nodup_append.1 hB.outs).1
  by_cases hpp : p = p'
  · subst hpp
    rw [← (hB.passive p hp).rows b hb b' hb' k hk k' hk']
    refine sum_nodes hκ hB.keys hcov (hins.1 p hp)
      (fun d => amp p.cs d (b, .opt k) * star (amp p.cs d (b', .opt k'))) ?_
    intro a x hne
    have : amp p.cs (a, x) (b, .opt k) = 0 := by
      by_contra h
      obtain ⟨j, hj, _, _, ha, _, hx, _⟩ := (hB.passive p hp).support h
      exact hne ⟨ha, j, hj, hx⟩
    rw [this, zero_mul]
  · have : Std.Symm (Function.onFun List.Disjoint (Part.ins : Part P O K → List P)) := ⟨fun _ _ h => List.Disjoint.symm h⟩
    have : Std.Symm (Function.onFun List.Disjoint (Part.outs : Part P O K → List P)) := ⟨fun _ _ h => List.Disjoint.symm h⟩
    have hdi := hins.2.forall hp hp' hpp
    have hdo := houts.2.forall hp hp' hpp
    rw [if_neg]
    · apply Finset.sum_eq_zero
      intro d _
      by_contra hne
      have h1 : amp p.cs (d.1, κ d.2) (b, .opt k) ≠ 0 := fun h => hne (by rw [h, zero_mul])
      have h2 : amp p'.cs (d.1, κ d.2) (b', .opt k') ≠ 0 := fun h => hne (by rw [h, star_zero, mul_zero])
      obtain ⟨_, _, _, _, ha, _⟩ := (hB.passive p hp).support h1
      obtain ⟨_, _, _, _, ha', _⟩ := (hB.passive p' hp').support h2
      exact hdi ha ha'
    · rintro ⟨rfl, -⟩
      exact hdo hb hb'

/-- sums over the vacuum fluctuations are sums over their nodes -/
theorem sum_sources {To : List P} (hTo : To.Nodup) {nkeys : P → List Kf} {Q : Kf → Prop} [DecidablePred Q]
    (hnk : ∀ o ∈ To, (nkeys o).Nodup ∧ ∀ k, k ∈ nkeys o ↔ Q k) (f : P × Kf → ℂ) :
    ((To.flatMap (fun o => (nkeys o).map (fun k => f (o, k)))).sum) = ∑ d : P × Kf, if d.1 ∈ To ∧ Q d.2 then f d else 0 := by
  classical
  rw [Fintype.sum_prod_type]
  have h1 : (To.flatMap (fun o => (nkeys o).map (fun k => f (o, k)))).sum =
      (To.map (fun o => ((nkeys o).map (fun k => f (o, k))).sum)).sum := by
    clear hTo hnk
    induction To with
    | nil => rfl
    | cons o l ih => rw [List.flatMap_cons, List.sum_append, ih, List.map_cons, List.sum_cons]
  rw [h1, ← List.sum_toFinset _ hTo]
  have h2 : ∀ a ∉ To.toFinset, ∑ k : Kf, (if a ∈ To ∧ Q k then f (a, k) else 0) = 0 := by
    intro a ha
    apply Finset.sum_eq_zero
    intro k _
    exact if_neg (fun hh => ha (List.mem_toFinset.2 hh.1))
  rw [← Finset.sum_subset (Finset.subset_univ To.toFinset) (fun a _ ha => h2 a ha)]
  apply Finset.sum_congr rfl
  intro a ha
  have haT := List.mem_toFinset.1 ha
  obtain ⟨n1, n2⟩ := hnk a haT
  rw [← List.sum_toFinset _ n1]
  have h3 : ∀ k ∉ (nkeys a).toFinset, (if a ∈ To ∧ Q k then f (a, k) else 0) = 0 := by
    intro k hk
    exact if_neg (fun hh => hk (List.mem_toFinset.2 ((n2 k).2 hh.2)))
  rw [← Finset.sum_subset (Finset.subset_univ (nkeys a).toFinset) (fun k _ hk => h3 k hk)]
  apply Finset.sum_congr rfl
  intro k hk
  rw [if_pos ⟨haT, (n2 k).1 (List.mem_toFinset.1 hk)⟩]

theorem partner_partner (j : OKey O K) (δ : K) : partner (partner j δ) δ = j := by
  obtain ⟨o, c, p, q⟩ := j
  unfold partner OKey.conj OKey.at
  cases q with
  | lower => simp only [shift, Quantum.conj, sub_neg_eq_add, sub_add_cancel]
  | raise => simp only [shift, Quantum.conj, sub_neg_eq_add, add_sub_cancel_right]

theorem partner_conj (j : OKey O K) (δ : K) : partner j.conj (-δ) = (partner j δ).conj := by
  obtain ⟨o, c, p, q⟩ := j
  unfold partner OKey.conj OKey.at
  cases q with
  | lower =>
    simp only [shift, Quantum.conj, neg_neg]
  | raise =>
    simp only [shift, Quantum.conj]

/-- **C86.**  Light passes any arrangement of elements which keep the commutators and falls on a photodiode; every port from
which light enters the arrangement and which nothing drives emits vacuum fluctuations.  The noise density read at the
photodiode at the frequency `δ` is then that of the shot noise: `h ν` times the power of the light in the solution, summed
over its optical frequencies, twice that for one-sided spectra.  The losses, phases and mixing on the way do not matter. -/
theorem C86_shot_noise (env : OEnv P O K ℂ) (sol : SolVec P (Key O K) ℂ) (ht : ∀ k : K, -k = k → k = 0)
    (hB : Bench ks parts To) (po_Fr : Port P) (BA Wpd : P) {pd rest : List (Coupling P (Key O K) ℂ)}
    (hpd : pd_setup env po_Fr BA Wpd = .ok pd) (hkeys : env.okeys po_Fr.i = ks)
    (hrej : ∀ k ∈ ks, env.reject k.cls = false) (hW : Balanced (env.skeys Wpd))
    (hlight : po_Fr.i ∈ parts.flatMap Part.outs) (hend : po_Fr.i ∉ parts.flatMap Part.ins)
    (hrest : ∀ c ∈ rest, ∀ e ∈ c.inj.edges, e.1.2.1 ∉ parts.flatMap Part.outs ++ To ∧ e.1.2.1 ≠ Wpd)
    {δ : K} (h0 : δ ≠ 0) (hδ : δ ∈ env.skeys Wpd)
    (hsol : ∀ k, k ∉ ks → getd sol (po_Fr.i, .opt k) 0 = 0)
    (hreal : ∀ k ∈ ks, getd sol (po_Fr.i, .opt { k with q := k.q.conj }) 0 = star (getd sol (po_Fr.i, .opt k) 0))
    (hside : ∀ k ∈ ks, getd sol (po_Fr.i, .opt k) 0 ≠ 0 →
      ({ k with cls := k.cls + δ } : OKey O K) ∈ ks ∧ ({ k with cls := k.cls - δ } : OKey O K) ∈ ks)
    (hκ : Function.Injective κ) (hcov : ∀ j ∈ ks, ∃ k, κ k = .opt j) {cj : Kf → Kf} (hcj : ∀ k, κ (cj k) = (κ k).conj)
    {g : Graph.G (P × Kf) ℂ} (hv : Graph.Valid g)
    (hg : ∀ d t : P × Kf, Graph.gain g d t = ((parts.flatMap Part.cs ++ pd ++ rest).map (fun c =>
      (c.inj.edges.map (fun e => if e.1 = ((d.1, κ d.2), (t.1, κ t.2)) then evalD sol e.2 else 0)).sum)).sum)
    (hinv : IsUnit (1 - Graph.mat g))
    {Ob Nm : Type} [DecidableEq Ob] [DecidableEq Nm] {cplgs : Dict P (List Kf)} {base : P → P} {st : Noise.St P Kf Ob}
    {nkeys : P → List Kf} {lower : Kf → Bool} {toR toL : Kf → Kf} {ob : P → Ob}
    (hnk : ∀ o ∈ To, (nkeys o).Nodup ∧ ∀ k, k ∈ nkeys o ↔ ∃ j ∈ ks, κ k = .opt j)
    (hlow : ∀ k j, κ k = .opt j → κ (if lower k then toR k else toL k) = .opt { j with q := j.q.conj })
    (hst : Noise.noise_map cplgs base (To.flatMap (fun o => Noise.vacuum_pairs nkeys lower toR toL o (ob o))) = .ok st)
    {opts : Graph.Opts (P × Kf) ℂ} {outs : List (P × Kf)} {r : Option (Dict (P × Kf) ℂ)} {em : Dict ((P × Kf) × (P × Kf)) ℂ}
    (hpick : ∀ l, l ≠ [] → opts.pick l ∈ l) (hneg : opts.negative = false)
    (hrun : Graph.inverse_solve opts outs st.pks none g = .ok (r, em))
    {port_map : Dict Nm P} (hpm : Dict.WF port_map) {R : Nm} (hR : Dict.get? port_map R = some Wpd) {keyP keyN : Kf}
    (hP : κ keyP = .sig δ) (hN : κ keyN = .sig (-δ)) (hoP : (Wpd, keyP) ∈ outs) (hoN : (Wpd, keyN) ∈ outs)
    {h c : ℝ} {iw : O → ℝ} (hc : env.c_m_s = c) (hiw : ∀ o, env.iwavelen_m o = iw o)
    {S : Noise.Pair P Kf Ob → ℂ} (hS : ∀ x, S x = vacuum_2pt env h (κ x.pk1.2))
    {sided : ℤ} {adjust : ℂ} (hadj : Noise.adjust_PSD sided = .ok adjust) :
    Noise.AC_PSD R (Noise.CSD_builds port_map keyP keyN adjust S em st.nmap) = .ok ((if sided = 1 then 2 else 1) *
      ((∑ k ∈ ks.toFinset, if k.q = .lower then
        h * c * iw k.opt * Complex.normSq (getd sol (po_Fr.i, .opt k) 0) else 0 : ℝ) : ℂ)) := by
  classical
  have hL : ∀ d t : P × Kf, Graph.gain g d t =
      linearGain sol (parts.flatMap Part.cs ++ pd ++ rest) (d.1, κ d.2) (t.1, κ t.2) := hg
  have hnδ : -δ ∈ env.skeys Wpd := (hW.2 δ hδ)
  -- the gain into the bench
  have hparts : ∀ d t : P × Key O K, linearGain sol (parts.flatMap Part.cs) d t = (parts.map (fun p => amp p.cs d t)).sum := by
    intro d t
    rw [linearGain_flatMap]
    congr 1
    apply List.map_congr_left
    intro p hp
    apply linearGain_edges
    intro x hx
    obtain ⟨a, _, b, _, k, _, k', _, v, rfl, _⟩ := (hB.passive p hp).edges x hx
    exact ⟨_, _, v, rfl⟩
  have hin : ∀ (d : P × Key O K) b (j : OKey O K), b ∈ parts.flatMap Part.outs ++ To →
      linearGain sol (parts.flatMap Part.cs ++ pd ++ rest) d (b, .opt j) = (parts.map (fun p => amp p.cs d (b, .opt j))).sum := by
    intro d b j hb
    have e1 : linearGain sol pd d (b, .opt j) = 0 := by
      refine pd_elsewhere env sol po_Fr BA Wpd hW hpd ?_
      rintro k - l - ⟨-, -, h3⟩
      injection h3 with _ h3
      cases h3
    have e2 : linearGain sol rest d (b, .opt j) = 0 := by
      refine linearGain_zero sol ?_
      intro x hx e he hne
      exact (hrest x hx e he).1 (by rw [hne]; exact hb)
    rw [linearGain_append, linearGain_append, e1, e2, add_zero, add_zero, hparts]
  have hout : ∀ (d : P × Key O K) l, l ∈ env.skeys Wpd →
      linearGain sol (parts.flatMap Part.cs ++ pd ++ rest) d (Wpd, .sig l) = linearGain sol pd d (Wpd, .sig l) := by
    intro d l _
    have e1 : linearGain sol (parts.flatMap Part.cs) d (Wpd, .sig l) = 0 := by
      rw [hparts]
      apply List.sum_eq_zero
      intro z hz
      obtain ⟨p, hp, rfl⟩ := List.mem_map.1 hz
      by_contra hne
      obtain ⟨k, _, k', _, _, _, _, h4, _⟩ := (hB.passive p hp).support hne
      cases h4
    have e2 : linearGain sol rest d (Wpd, .sig l) = 0 := by
      refine linearGain_zero sol ?_
      intro x hx e he hne
      exact (hrest x hx e he).2 (by rw [hne])
    rw [linearGain_append, linearGain_append, e1, e2, add_zero, zero_add]
  -- the nodes
  let σ : P × Kf → P × Kf := fun n => (n.1, cj n.2)
  let V : P × Kf → Prop := fun n => n.1 ∈ parts.flatMap Part.outs ++ To ∧ ∃ j ∈ ks, κ n.2 = .opt j
  let D : P × Kf → Prop := fun n => n.1 ∈ To ∧ ∃ j ∈ ks, κ n.2 = .opt j
  let Y : P × Kf → Prop := fun n => n.1 = po_Fr.i ∧ ∃ j ∈ ks, κ n.2 = .opt j
  let S0 : P × Kf → ℂ := fun n => vacuum_2pt env h (κ n.2)
  have hkey : ∀ k, (∃ j ∈ ks, κ k = .opt j) → ∃ j ∈ ks, κ (cj k) = .opt j := by
    rintro k ⟨j, hj, hk⟩
    exact ⟨_, hB.conj j hj, by rw [hcj, hk]; rfl⟩
  have hσ : ∀ n, σ (σ n) = n := by
    intro n
    refine Prod.ext rfl (hκ ?_)
    change κ (cj (cj n.2)) = κ n.2
    rw [hcj, hcj, Key.conj_conj]
  have hMpart : ∀ (t d : P × Kf) (p : Part P O K), p ∈ parts → t.1 ∈ p.outs → (∃ j ∈ ks, κ t.2 = .opt j) →
      Graph.mat g t d = amp p.cs (d.1, κ d.2) (t.1, κ t.2) := by
    rintro t d p hp htp ⟨j, hj, hk⟩
    change Graph.gain g d t = _
    rw [hL, hk, hin _ _ _ (List.mem_append_left _ (List.mem_flatMap.2 ⟨p, hp, htp⟩))]
    exact hB.one hp htp
  have hMTo : ∀ t d : P × Kf, D t → Graph.mat g t d = 0 := by
    rintro t d ⟨htT, j, hj, hk⟩
    change Graph.gain g d t = _
    rw [hL, hk, hin _ _ _ (List.mem_append_right _ htT)]
    exact hB.none htT
  have hcase : ∀ t, V t → D t ∨ ∃ p ∈ parts, t.1 ∈ p.outs := by
    rintro t ⟨h1, h2⟩
    rcases List.mem_append.1 h1 with h1 | h1
    · obtain ⟨p, hp, hb⟩ := List.mem_flatMap.1 h1
      exact Or.inr ⟨p, hp, hb⟩
    · exact Or.inl ⟨h1, h2⟩
  have hMne : ∀ t d, V t → Graph.mat g t d ≠ 0 → ∃ p ∈ parts, ∃ k ∈ ks, ∃ k' ∈ ks, d.1 ∈ p.ins ∧ t.1 ∈ p.outs ∧
      κ d.2 = .opt k ∧ κ t.2 = .opt k' ∧ k'.opt = k.opt := by
    intro t d hVt hne
    rcases hcase t hVt with hD | ⟨p, hp, htp⟩
    · exact absurd (hMTo t d hD) hne
    · rw [hMpart t d p hp htp hVt.2] at hne
      exact ⟨p, hp, (hB.passive p hp).support hne⟩
  have hresp : ∀ (d : P × Kf) l, l ∈ env.skeys Wpd → l ≠ 0 → ∀ w : Kf, κ w = .sig l → ∀ j : OKey O K, κ d.2 = .opt j →
      d.1 = po_Fr.i → env.reject j.cls = false →
      Graph.mat g (Wpd, w) d = getd sol (on po_Fr.i (partner j l)) 0 := by
    intro d l hl hl0 w hw j hj hd hr
    change Graph.gain g d (Wpd, w) = _
    rw [hL, hw, hout _ l hl, hj, hd]
    have := pd_response env sol ht po_Fr BA Wpd (hkeys ▸ hB.keys) (hkeys ▸ hB.conj) hW hpd (hkeys ▸ hsol) hl j hr
    rw [if_neg hl0, div_one] at this
    exact this
  have hside' : ∀ j : OKey O K, ∀ l, (l = δ ∨ l = -δ) → getd sol (on po_Fr.i (partner j l)) 0 ≠ 0 → j ∈ ks := by
    intro j l hl hne
    have hm : partner j l ∈ ks := by
      by_contra hm
      exact hne (hsol _ hm)
    have h2 := hside _ hm hne
    have h3 : j.conj ∈ ks := by
      obtain ⟨o, f, p, q⟩ := j
      rcases hl with rfl | rfl <;> cases q
      · have := h2.1
        simpa only [partner, OKey.conj, OKey.at, shift, sub_add_cancel] using this
      · have := h2.2
        simpa only [partner, OKey.conj, OKey.at, shift, sub_neg_eq_add, add_sub_cancel_right] using this
      · have := h2.2
        simpa only [partner, OKey.conj, OKey.at, shift, sub_neg_eq_add, add_sub_cancel_right] using this
      · have := h2.1
        simpa only [partner, OKey.conj, OKey.at, shift, neg_neg, sub_add_cancel] using this
    have := hB.conj _ h3
    rwa [show ({ j.conj with q := j.conj.q.conj } : OKey O K) = j from j.conj_conj] at this
  have hwY : ∀ l, (l = δ ∨ l = -δ) → l ∈ env.skeys Wpd → l ≠ 0 → ∀ w : Kf, κ w = .sig l → ∀ d,
      Graph.mat g (Wpd, w) d ≠ 0 → Y d := by
    intro l hlδ hl hl0 w hw d hne
    have hne' := hne
    change Graph.gain g d (Wpd, w) ≠ 0 at hne'
    rw [hL, hw, hout _ l hl] at hne'
    obtain ⟨⟨j, hj, hr⟩, -⟩ := C85_only env sol po_Fr BA Wpd hW hpd hne'
    injection hj with hj1 hj2
    rw [hresp d l hl hl0 w hw j hj2 hj1 hr] at hne
    exact ⟨hj1, j, hside' j l hlδ hne, hj2⟩
  have hδ0 : -δ ≠ 0 := neg_ne_zero.2 h0
  have hwV : ∀ (w : Kf) l, κ w = .sig l → ¬V (Wpd, w) := by
    rintro w l hw ⟨-, j, _, hj⟩
    dsimp only at hj
    rw [hw] at hj
    cases hj
  -- the core
  have core := shot (M := Graph.mat g) hinv (σ := σ) hσ (V := V) (D := D) (Y := Y)
    (by
      intro t d hVt hd
      by_contra hne
      obtain ⟨p, hp, k, hk, _, _, ha, _, hdk, _⟩ := hMne t d hVt hne
      exact hd ⟨hB.driven _ (List.mem_flatMap.2 ⟨p, hp, ha⟩), k, hk, hdk⟩)
    (fun t h => ⟨h.1, hkey _ h.2⟩) (fun t h => ⟨List.mem_append_right _ h.1, h.2⟩) (fun t h => ⟨h.1, hkey _ h.2⟩)
    (fun t d h => hMTo t d h)
    (by
      intro t t' hVt hVt' hDt hDt'
      obtain ⟨p, hp, htp⟩ := (hcase t hVt).resolve_left hDt
      obtain ⟨p', hp', htp'⟩ := (hcase t' hVt').resolve_left hDt'
      obtain ⟨k, hk, hkt⟩ := hVt.2
      obtain ⟨k', hk', hkt'⟩ := hVt'.2
      have hR := hB.rows hκ hcov hp hp' htp htp' hk hk'
      have hiff : (t = t') ↔ (t.1 = t'.1 ∧ k = k') := by
        constructor
        · rintro rfl
          rw [hkt] at hkt'
          injection hkt' with hkt'
          exact ⟨rfl, hkt'⟩
        · rintro ⟨h1, rfl⟩
          exact Prod.ext h1 (hκ (hkt.trans hkt'.symm))
      simp only [hiff]
      rw [← hR]
      apply Finset.sum_congr rfl
      intro d _
      rw [hMpart t d p hp htp ⟨k, hk, hkt⟩, hMpart (σ t') (σ d) p' hp' htp' (hkey _ ⟨k', hk', hkt'⟩)]
      have hc := hB.amp_conj hp' (t := (t'.1, κ t'.2)) htp' hk' hkt' (d.1, κ d.2)
      change _ * amp p'.cs (d.1, κ (cj d.2)) (t'.1, κ (cj t'.2)) = _
      rw [hcj, hcj, hc, hkt, hkt'])
    (fun y h => ⟨List.mem_append_left _ (h.1 ▸ hlight), h.2⟩) (fun y h => ⟨h.1, hkey _ h.2⟩)
    (by
      intro t y hVt hYy
      by_contra hne
      obtain ⟨p, hp, k, hk, _, _, ha, _⟩ := hMne t y hVt hne
      exact hend (List.mem_flatMap.2 ⟨p, hp, hYy.1 ▸ ha⟩))
    (S := S0)
    (by
      intro t d hVt hVd hne
      obtain ⟨p, hp, k, hk, k', hk', _, _, h1, h2, h3⟩ := hMne t d hVt hne
      change vacuum_2pt env h (κ d.2) = vacuum_2pt env h (κ t.2)
      rw [h1, h2]
      change ↑h * env.c_m_s * env.iwavelen_m k.opt / 2 = ↑h * env.c_m_s * env.iwavelen_m k'.opt / 2
      rw [h3])
    (w := (Wpd, keyP)) (w' := (Wpd, keyN)) (hwV _ _ hP) (hwV _ _ hN)
    (hwY δ (Or.inl rfl) hδ h0 keyP hP) (hwY (-δ) (Or.inr rfl) hnδ hδ0 keyN hN)
  -- the noise read out
  have hTo : To.Nodup := (List.nodup_append.1 hB.outs).2.1
  have hpks := (Noise.C77_noise_map.2 st hst).2
  set calls := To.flatMap (fun o => Noise.vacuum_pairs nkeys lower toR toL o (ob o)) with hcalls
  have hflip : ∀ k j, κ k = .opt j → (if lower k then toR k else toL k) = cj k := by
    intro k j hk
    apply hκ
    rw [hlow k j hk, hcj, hk]
    rfl
  have hsum : (calls.map (Noise.spectrum adjust S em keyP keyN Wpd Wpd)).sum =
      adjust * ∑ d, (if D d then S0 d * (1 - Graph.mat g)⁻¹ (Wpd, keyP) d * (1 - Graph.mat g)⁻¹ (Wpd, keyN) (σ d) else 0) := by
    have e1 : (calls.map (Noise.spectrum adjust S em keyP keyN Wpd Wpd)).sum = ((To.flatMap (fun o => (nkeys o).map (fun k =>
        adjust * (S0 (o, k) * (1 - Graph.mat g)⁻¹ (Wpd, keyP) (o, k) * (1 - Graph.mat g)⁻¹ (Wpd, keyN) (σ (o, k))))))).sum := by
      congr 1
      rw [hcalls, List.map_flatMap]
      have : ∀ l : List P, (∀ o ∈ l, o ∈ To) → l.flatMap (fun a => List.map (Noise.spectrum adjust S em keyP keyN Wpd Wpd)
          (Noise.vacuum_pairs nkeys lower toR toL a (ob a))) = l.flatMap (fun o => (nkeys o).map (fun k => adjust *
            (S0 (o, k) * (1 - Graph.mat g)⁻¹ (Wpd, keyP) (o, k) * (1 - Graph.mat g)⁻¹ (Wpd, keyN) (σ (o, k))))) := by
        intro l hl
        apply List.flatMap_congr
        intro a ha
        unfold Noise.vacuum_pairs
        rw [List.map_map]
        apply List.map_congr_left
        intro k hk
        obtain ⟨j, hj, hkj⟩ := ((hnk a (hl a ha)).2 k).1 hk
        have hmem : (⟨(a, k), (a, if lower k then toR k else toL k), ob a⟩ : Noise.Pair P Kf Ob) ∈ calls :=
          List.mem_flatMap.2 ⟨a, hl a ha, List.mem_map.2 ⟨k, hk, rfl⟩⟩
        change Noise.spectrum adjust S em keyP keyN Wpd Wpd ⟨(a, k), (a, if lower k then toR k else toL k), ob a⟩ = _
        unfold Noise.spectrum
        rw [Noise.resp_solve hpick hneg hv hinv hrun ((hpks _).2 ⟨_, hmem, Or.inl rfl⟩) hoP,
          Noise.resp_solve hpick hneg hv hinv hrun ((hpks _).2 ⟨_, hmem, Or.inr rfl⟩) hoN, hS]
        dsimp only
        rw [hflip k j hkj]
        change adjust * S0 (a, k) * _ * _ = _
        ring
      exact this To (fun _ h => h)
    rw [e1, sum_sources hTo hnk (fun d => adjust *
      (S0 d * (1 - Graph.mat g)⁻¹ (Wpd, keyP) d * (1 - Graph.mat g)⁻¹ (Wpd, keyN) (σ d))), Finset.mul_sum]
    apply Finset.sum_congr rfl
    intro d _
    rw [mul_ite, mul_zero]
  rw [core] at hsum
  -- the light in the solution
  let A : OKey O K → ℂ := fun m => h * c * iw m.opt / 2 *
    (getd sol (on po_Fr.i m) 0 * getd sol (on po_Fr.i m.conj) 0)
  have hY : ∑ y, S0 y * Graph.mat g (Wpd, keyP) y * Graph.mat g (Wpd, keyN) (σ y) =
      ∑ j ∈ ks.toFinset, A (partner j δ) := by
    let f : P × Key O K → ℂ := fun n => if n.1 = po_Fr.i then (match n.2 with
      | .opt j => if j ∈ ks then A (partner j δ) else 0
      | .sig _ => 0) else 0
    have e1 : ∀ y, S0 y * Graph.mat g (Wpd, keyP) y * Graph.mat g (Wpd, keyN) (σ y) = f (y.1, κ y.2) := by
      intro y
      by_cases hYy : Y y
      · obtain ⟨hy1, j, hj, hjy⟩ := hYy
        have r1 := hresp y δ hδ h0 keyP hP j hjy hy1 (hrej j hj)
        have r2 := hresp (σ y) (-δ) hnδ hδ0 keyN hN j.conj (by rw [hcj, hjy]; rfl) hy1 (hrej j hj)
        rw [partner_conj] at r2
        rw [r1, r2]
        have e2 : f (y.1, κ y.2) = A (partner j δ) := by
          simp only [f, hy1, hjy, if_true, hj]
        have e3 : S0 y = h * c * iw j.opt / 2 := by
          change vacuum_2pt env h (κ y.2) = _
          rw [hjy]
          change ↑h * env.c_m_s * env.iwavelen_m j.opt / 2 = _
          rw [hc, hiw]
        rw [e2, e3, mul_assoc]
        rfl
      · have r0 : Graph.mat g (Wpd, keyP) y = 0 := by
          by_contra hne
          exact hYy (hwY δ (Or.inl rfl) hδ h0 keyP hP y hne)
        have e2 : f (y.1, κ y.2) = 0 := by
          simp only [f]
          by_cases hy1 : y.1 = po_Fr.i
          · rw [if_pos hy1]
            cases hjy : κ y.2 with
            | opt j =>
              dsimp only
              rw [if_neg (fun hj => hYy ⟨hy1, j, hj, hjy⟩)]
            | sig l => rfl
          · rw [if_neg hy1]
        rw [r0, e2, mul_zero, zero_mul]
    rw [Finset.sum_congr rfl (fun y _ => e1 y), sum_nodes hκ hB.keys hcov (List.nodup_singleton po_Fr.i) f, List.map_cons,
      List.map_nil, List.sum_cons, List.sum_nil, add_zero, ← List.sum_toFinset _ hB.keys]
    · apply Finset.sum_congr rfl
      intro j hj
      simp only [f, if_true, List.mem_toFinset.1 hj]
    · intro a x hne
      simp only [f]
      by_cases ha : a = po_Fr.i
      · rw [if_pos ha]
        cases x with
        | opt j =>
          dsimp only
          rw [if_neg (fun hj => hne ⟨List.mem_singleton.2 ha, j, hj, rfl⟩)]
        | sig l => rfl
      · rw [if_neg ha]
  have hre : ∑ j ∈ ks.toFinset, A (partner j δ) = ∑ m ∈ ks.toFinset, A m := by
    have hA : ∀ m, A m ≠ 0 → getd sol (on po_Fr.i m) 0 ≠ 0 := by
      intro m hm h1
      apply hm
      change _ * (getd sol (on po_Fr.i m) 0 * _) = 0
      rw [h1, zero_mul, mul_zero]
    refine Finset.sum_bij_ne_zero (fun j _ _ => partner j δ) ?_ ?_ ?_ ?_
    · intro j _ hne
      refine List.mem_toFinset.2 ?_
      by_contra hm
      exact hA _ hne (hsol _ hm)
    · intro a _ _ b _ _ hab
      rw [← partner_partner a δ, hab, partner_partner]
    · intro m hm hne
      have hAm := hA m hne
      rw [← partner_partner m δ] at hAm
      exact ⟨partner m δ, List.mem_toFinset.2 (hside' _ δ (Or.inl rfl) hAm), by rw [partner_partner]; exact hne,
        partner_partner m δ⟩
    · intro j _ _
      rfl
  have hAconj : ∀ m, A m.conj = A m := by
    intro m
    change _ * (getd sol (on po_Fr.i m.conj) 0 * getd sol (on po_Fr.i m.conj.conj) 0) = _
    rw [OKey.conj_conj, mul_comm (getd sol (on po_Fr.i m.conj) 0)]
    rfl
  have hhalf : ∑ m ∈ ks.toFinset, A m = ∑ m ∈ ks.toFinset, if m.q = .lower then 2 * A m else 0 := by
    have e1 : ∀ m : OKey O K, A m = (if m.q = .lower then A m else 0) + (if m.q = .raise then A m else 0) := by
      intro m
      cases m.q <;> simp
    have e2 : ∑ m ∈ ks.toFinset, (if m.q = .raise then A m else 0) = ∑ m ∈ ks.toFinset, (if m.q = .lower then A m else 0) := by
      refine Finset.sum_bij' (fun m _ => m.conj) (fun m _ => m.conj) ?_ ?_ ?_ ?_ ?_
      · exact fun m hm => List.mem_toFinset.2 (hB.conj m (List.mem_toFinset.1 hm))
      · exact fun m hm => List.mem_toFinset.2 (hB.conj m (List.mem_toFinset.1 hm))
      · exact fun m _ => m.conj_conj
      · exact fun m _ => m.conj_conj
      · intro m _
        rw [hAconj]
        unfold OKey.conj
        cases m.q <;> simp [Quantum.conj]
    rw [Finset.sum_congr rfl (fun m _ => e1 m), Finset.sum_add_distrib, e2, ← Finset.sum_add_distrib]
    apply Finset.sum_congr rfl
    intro m _
    by_cases hm : m.q = .lower
    · rw [if_pos hm, if_pos hm]
      ring
    · rw [if_neg hm, if_neg hm, add_zero]
  have hfinal : ∑ y, S0 y * Graph.mat g (Wpd, keyP) y * Graph.mat g (Wpd, keyN) (σ y) =
      ((∑ k ∈ ks.toFinset, if k.q = .lower then
        h * c * iw k.opt * Complex.normSq (getd sol (po_Fr.i, .opt k) 0) else 0 : ℝ) : ℂ) := by
    rw [hY, hre, hhalf, Complex.ofReal_sum]
    apply Finset.sum_congr rfl
    intro m hm
    by_cases hq : m.q = .lower
    · rw [if_pos hq, if_pos hq]
      have e1 : getd sol (on po_Fr.i m.conj) 0 = star (getd sol (po_Fr.i, .opt m) 0) := hreal m (List.mem_toFinset.1 hm)
      change 2 * (_ * (getd sol (po_Fr.i, .opt m) 0 * getd sol (on po_Fr.i m.conj) 0)) = _
      rw [e1, Complex.ofReal_mul, Complex.normSq_eq_conj_mul_self, Complex.ofReal_mul, Complex.ofReal_mul]
      change _ = _ * (star (getd sol (po_Fr.i, .opt m) 0) * getd sol (po_Fr.i, .opt m) 0)
      ring
    · rw [if_neg hq, if_neg hq, Complex.ofReal_zero]
  have hread := (Noise.C77_readout (keyP := keyP) (keyN := keyN) (adjust := adjust) (S := S) hst (Noise.solve_WF hrun) hpm hR).1
  rw [hsum, hfinal] at hread
  rw [hread]
  refine congrArg Except.ok ?_
  unfold Noise.adjust_PSD at hadj
  unfold Noise.npreal
  by_cases h1 : sided = 1
  · rw [if_pos h1] at hadj ⊢
    injection hadj with hadj
    rw [← hadj, ← Complex.ofReal_ofNat, ← Complex.ofReal_mul, Complex.ofReal_re]
  · rw [if_neg h1] at hadj ⊢
    by_cases h2 : sided = 2
    · rw [if_pos h2] at hadj
      injection hadj with hadj
      rw [← hadj, one_mul, Complex.ofReal_re]
    · rw [if_neg h2] at hadj
      cases hadj

/-- **C86**, for light of one wavelength: the sum in `C86_shot_noise` is `h ν` times the output of the photodiode at zero
frequency, so the density is `2 h ν` times the power read by the photodiode (`h ν` for two-sided spectra). -/
theorem C86_dc (env : OEnv P O K ℂ) (sol : SolVec P (Key O K) ℂ) (ht : ∀ k : K, -k = k → k = 0)
    (hn : ks.Nodup) (hconj : ∀ k ∈ ks, ({ k with q := k.q.conj } : OKey O K) ∈ ks)
    (po_Fr : Port P) (BA Wpd : P) {pd : List (Coupling P (Key O K) ℂ)}
    (hpd : pd_setup env po_Fr BA Wpd = .ok pd) (hkeys : env.okeys po_Fr.i = ks)
    (hrej : ∀ k ∈ ks, env.reject k.cls = false) (hBA : Balanced (env.skeys BA)) (hW : Balanced (env.skeys Wpd))
    (h0 : 0 ∈ env.skeys Wpd) (hsol : ∀ k, k ∉ ks → getd sol (po_Fr.i, .opt k) 0 = 0)
    (hreal : ∀ k ∈ ks, getd sol (po_Fr.i, .opt { k with q := k.q.conj }) 0 = star (getd sol (po_Fr.i, .opt k) 0))
    {h c w : ℝ} {iw : O → ℝ} (hw : ∀ k ∈ ks, iw k.opt = w) :
    ((∑ k ∈ ks.toFinset, if k.q = .lower then
        h * c * iw k.opt * Complex.normSq (getd sol (po_Fr.i, .opt k) 0) else 0 : ℝ) : ℂ) =
      h * c * w * (pd.map (fun x => x.into (fun n => getd sol n 0) (Wpd, .sig 0))).sum := by
  rw [C65_coefficient env two_ne_zero ht po_Fr BA Wpd (hkeys ▸ hn) (hkeys ▸ hconj) (hkeys ▸ hrej) hBA hW hpd
    (fun n => getd sol n 0) (hkeys ▸ hsol) h0, if_pos rfl, one_mul, hkeys, Finset.mul_sum, Complex.ofReal_sum]
  apply Finset.sum_congr rfl
  intro a ha
  have ha' := List.mem_toFinset.1 ha
  have hiff : ∀ b : OKey O K, (a.q = .lower ∧ b.q = .raise ∧ a.opt = b.opt ∧ a.pol = b.pol ∧ a.cls = b.cls + 0) ↔
      (a.q = .lower ∧ b = a.conj) := by
    intro b
    obtain ⟨o, f, p, q⟩ := a
    obtain ⟨o', f', p', q'⟩ := b
    unfold OKey.conj
    rw [OKey.mk.injEq, add_zero]
    constructor
    · rintro ⟨rfl, rfl, rfl, rfl, rfl⟩
      exact ⟨rfl, rfl, rfl, rfl, rfl⟩
    · rintro ⟨rfl, rfl, rfl, rfl, rfl⟩
      exact ⟨rfl, rfl, rfl, rfl, rfl⟩
  simp only [hiff]
  by_cases hq : a.q = .lower
  · simp only [hq, true_and, if_true]
    rw [Finset.sum_ite_eq' ks.toFinset a.conj (fun b => getd sol (po_Fr.i, Key.opt a) 0 * getd sol (po_Fr.i, Key.opt b) 0),
      if_pos (show a.conj ∈ ks.toFinset from List.mem_toFinset.2 (hconj a ha'))]
    have e1 : getd sol (po_Fr.i, .opt a.conj) 0 = star (getd sol (po_Fr.i, .opt a) 0) := hreal a ha'
    rw [e1, hw a ha', Complex.ofReal_mul, Complex.normSq_eq_conj_mul_self, Complex.ofReal_mul, Complex.ofReal_mul]
    change _ * (star (getd sol (po_Fr.i, .opt a) 0) * getd sol (po_Fr.i, .opt a) 0) = _
    ring
  · simp [hq]

end Shot
