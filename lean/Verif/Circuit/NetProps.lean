import Verif.Circuit.NetBasic

/-!
# C55: the waves of a circuit are the solutions of its circuit equations
-/

set_option linter.unusedSectionVars false

namespace Circuit
open Py Inject

variable {B K F : Type} [DecidableEq B] [DecidableEq K] [Field F] [DecidableEq F]

/-! ## statement -/

/-- The electrical ports of the circuit. -/
def Net.ports (n : Net B F) : List (Port (Key B)) := n.els.flatMap Elem.ports

/-- The keys of their waves. -/
def Net.nodes (n : Net B F) : List (Key B) := n.ports.flatMap (fun p => [p.i, p.o])

/-- The test points of the voltage readouts. -/
def Net.tests (n : Net B F) : List (Key B) :=
  (n.meters.flatMap Meter.terminals).flatMap (fun p => [posted p.o, preposed p.i])

/-- The key a readout writes to. -/
def Meter.target : Meter B → Key B
  | .volt _ _ V => V
  | .amp _ _ I => I

/-- The ports a readout looks at. -/
def Meter.ports : Meter B → List (Port (Key B))
  | .volt t N _ => t :: N.toList
  | .amp _ t _ => [t]

/-- The circuit is put together properly: every port belongs to one element and has its own waves, every port is
bonded, fluctuations and readouts are attached to ports of the circuit, and readouts have their own outputs. -/
structure Net.WF (n : Net B F) : Prop where
  nodup : n.nodes.Nodup
  base : ∀ q ∈ n.nodes, q.2 = none
  ends : ∀ ab ∈ n.bonds, ab.1 ∈ n.ports ∧ ab.2 ∈ n.ports
  bonded : ∀ p ∈ n.ports, ∃ ab ∈ n.bonds, p = ab.1 ∨ p = ab.2
  flucts : ∀ f ∈ n.flucts, f.port ∈ n.ports
  meters : ∀ m ∈ n.meters, ∀ p ∈ m.ports, p ∈ n.ports
  outputs : (n.meters.map Meter.target).Nodup
  output : ∀ m ∈ n.meters, m.target ∉ n.nodes ∧ m.target.2 = none

/-- The fields solve the equation of the node `t`: the field is the sum of the fields bonded to it and of what the
couplings add to it. -/
def NodeEq {P : Type} [DecidableEq P] (g : SR (P × K)) (cs : List (Coupling P K F)) (x : P × K → F) (t : P × K) : Prop :=
  x t = ((lst g.req t).map x).sum + total cs x t

/-- The sum of the voltage fluctuations at a port. -/
def Net.vn (n : Net B F) (x : Key B × K → F) (k : K) (p : Port (Key B)) : F :=
  (n.flucts.map (fun f => if f.voltage = true ∧ f.port = p then x (f.virt, k) else 0)).sum

/-- The sum of the current fluctuations at a port, as waves. -/
def Net.cn (n : Net B F) (x : Key B × K → F) (k : K) (p : Port (Key B)) : F :=
  (n.flucts.map (fun f => if f.voltage = false ∧ f.port = p then x (f.virt, k) else 0)).sum

/-- The voltage on the bond side of a port. -/
def Net.V (n : Net B F) (x : Key B × K → F) (k : K) (p : Port (Key B)) : F :=
  x (p.i, k) + x (p.o, k) - (n.vn x k p + n.cn x k p) / 2

/-- The current on the bond side of a port, into the port. -/
def Net.I (n : Net B F) (env : Env (Key B) K F) (x : Key B × K → F) (k : K) (p : Port (Key B)) : F :=
  (x (p.i, k) - x (p.o, k) - (n.vn x k p + n.cn x k p) / 2) / env.Ze

/-! ## the incoming bonds of the nodes -/

theorem post_get (calls : List (Key B)) (d : Dict (Key B) (Key B)) (p : Key B) :
    Dict.get? (calls.foldl ports_post_get d) p = if p ∈ calls then some (posted p) else Dict.get? d p := by
  induction calls generalizing d with
  | nil => rfl
  | cons c calls ih =>
    rw [List.foldl_cons, ih]
    by_cases hp : p ∈ calls
    · rw [if_pos hp, if_pos (List.mem_cons_of_mem _ hp)]
    · rw [if_neg hp]
      unfold ports_post_get
      rw [Dict.get?_set]
      by_cases hc : c = p
      · subst hc
        rw [if_pos rfl, if_pos List.mem_cons_self]
        rfl
      · rw [if_neg hc, if_neg]
        rintro h
        rcases List.mem_cons.1 h with h | h
        · exact hc h.symm
        · exact hp h

theorem pre_get (calls : List (Key B)) (d : Dict (Key B) (Key B)) (p : Key B) :
    Dict.get? (calls.foldl ports_pre_get d) p = if p ∈ calls then some (preposed p) else Dict.get? d p := by
  induction calls generalizing d with
  | nil => rfl
  | cons c calls ih =>
    rw [List.foldl_cons, ih]
    by_cases hp : p ∈ calls
    · rw [if_pos hp, if_pos (List.mem_cons_of_mem _ hp)]
    · rw [if_neg hp]
      unfold ports_pre_get
      rw [Dict.get?_set]
      by_cases hc : c = p
      · subst hc
        rw [if_pos rfl, if_pos List.mem_cons_self]
        rfl
      · rw [if_neg hc, if_neg]
        rintro h
        rcases List.mem_cons.1 h with h | h
        · exact hc h.symm
        · exact hp h

/-- the ports with a test point after them -/
def Net.postL (n : Net B F) : List (Key B) := n.meters.flatMap fun m => m.terminals.map Port.o

/-- the ports with a test point before them -/
def Net.preL (n : Net B F) : List (Key B) := n.meters.flatMap fun m => m.terminals.map Port.i

theorem Net.post_get? (n : Net B F) (p : Key B) :
    Dict.get? n.post p = if p ∈ n.postL then some (posted p) else none := post_get n.postL [] p

theorem Net.pre_get? (n : Net B F) (p : Key B) :
    Dict.get? n.pre p = if p ∈ n.preL then some (preposed p) else none := pre_get n.preL [] p

/-- where the wave leaving a port is picked up -/
def Net.out (n : Net B F) (p : Key B) : Key B := if p ∈ n.postL then posted p else p

theorem one_step {d : Dict (Key B) (Key B)} {L : List (Key B)} {f : Key B → Key B}
    (hd : ∀ p, Dict.get? d p = if p ∈ L then some (f p) else none) (hf : ∀ p, (f p).2 ≠ none)
    (hL : ∀ p ∈ L, p.2 = none) (p q : Key B) :
    (Leads d p q ↔ q = p ∨ (p ∈ L ∧ q = f p)) ∧ (LastOf d p q ↔ q = if p ∈ L then f p else p) := by
  have hn : ∀ p, Dict.get? d (f p) = none := by
    intro p
    rw [hd, if_neg]
    exact fun h => hf p (hL _ h)
  have h1 : Leads d p q ↔ q = p ∨ (p ∈ L ∧ q = f p) := by
    by_cases hp : p ∈ L
    · rw [leads_head (by rw [hd, if_pos hp]), leads_stop (hn p)]
      simp [hp]
    · rw [leads_stop (by rw [hd, if_neg hp])]
      simp [hp]
  refine ⟨h1, ?_⟩
  unfold LastOf
  rw [h1]
  by_cases hp : p ∈ L
  · rw [if_pos hp]
    constructor
    · rintro ⟨rfl | ⟨-, rfl⟩, h⟩
      · rw [hd, if_pos hp] at h
        cases h
      · rfl
    · rintro rfl
      exact ⟨Or.inr ⟨hp, rfl⟩, hn p⟩
  · rw [if_neg hp]
    constructor
    · rintro ⟨rfl | ⟨h, -⟩, -⟩
      · rfl
      · exact absurd h hp
    · rintro rfl
      exact ⟨Or.inl rfl, by rw [hd, if_neg hp]⟩

theorem eq_singleton {α : Type} {l : List α} {a : α} (hn : l.Nodup) (h : ∀ b, b ∈ l ↔ b = a) : l = [a] := by
  match l, hn, h with
  | [], _, h => exact absurd ((h a).2 rfl) List.not_mem_nil
  | [b], _, h => rw [(h b).1 List.mem_cons_self]
  | b :: c :: l, hn, h =>
    rw [List.nodup_cons] at hn
    refine absurd ?_ hn.1
    rw [(h b).1 List.mem_cons_self, (h c).1 (List.mem_cons_of_mem _ List.mem_cons_self)]
    exact List.mem_cons_self

/-- the bonds of a circuit, with everything needed to follow them -/
structure Wired (n : Net B F) (ports : Dict (Key B) (List K)) (g : SR (Key B × K)) : Prop where
  nodup : ∀ t, (lst g.req t).Nodup
  req : ∀ t a, a ∈ lst g.req t ↔ a.2 = t.2 ∧ ∃ o i, Joins n.bonds o i ∧ ∃ ks, Dict.get? ports (o.1, none) = some ks ∧
    a.2 ∈ ks ∧ Link n.post n.pre o i a.1 t.1
  unique : ∀ o o' i, Joins n.bonds o i → Joins n.bonds o' i → o = o'
  unique' : ∀ o i i', Joins n.bonds o i → Joins n.bonds o i' → i = i'

theorem links_wired {n : Net B F} {ports : Dict (Key B) (List K)} {fuel : Nat} {g : SR (Key B × K)}
    (h : n.links ports fuel = .ok (some g)) : Wired n ports g := by
  unfold Net.links at h
  obtain ⟨st, hst, h⟩ := bind_ok_inv h
  have ha := bond_all_ok hst attached_nil
  obtain ⟨hwf, hm, hb⟩ := C54_bonds h
  refine ⟨?_, ?_, ?_, ?_⟩
  · intro t
    unfold lst
    cases ht : Dict.get? g.req t with
    | none => exact List.nodup_nil
    | some l => exact hwf.2.2 _ (Dict.mem_of_get? ht)
  · rintro ⟨t, kt⟩ ⟨a, ka⟩
    have e := hm (a, ka) (t, kt)
    unfold mem at e
    unfold lst
    rw [← e]
    have := hb (a, ka) (t, kt)
    unfold mem at this
    rw [this]
    apply and_congr_right
    intro _
    constructor
    · rintro ⟨pf, ptos, h1, pt, h2, ks, h3⟩
      obtain ⟨i, h4 | h4, rfl⟩ := (ha.get _ _).1 (Dict.get?_of_mem ha.wf h1)
      · exact h4.elim
      · rw [List.mem_singleton] at h2
        subst h2
        exact ⟨pf, pt, h4, ks, h3⟩
    · rintro ⟨o, i, h1, ks, h2⟩
      exact ⟨o, [i], Dict.mem_of_get? ((ha.get _ _).2 ⟨i, Or.inr h1, rfl⟩), i, List.mem_singleton.2 rfl, ks, h2⟩
  · intro o o' i h1 h2
    exact ha.unique _ _ _ (Or.inr h1) (Or.inr h2)
  · intro o i i' h1 h2
    have e1 := (ha.get o [i]).2 ⟨i, Or.inr h1, rfl⟩
    have e2 := (ha.get o [i']).2 ⟨i', Or.inr h2, rfl⟩
    rw [e1] at e2
    cases e2
    rfl

theorem posted_ne (p : Key B) : (posted p).2 ≠ none := by simp [posted]

theorem preposed_ne (p : Key B) : (preposed p).2 ≠ none := by simp [preposed]

section Incoming
variable {n : Net B F} {ports : Dict (Key B) (List K)} {g : SR (Key B × K)}

theorem Net.WF.mem_i (hw : n.WF) {p : Port (Key B)} (hp : p ∈ n.ports) : p.i ∈ n.nodes :=
  List.mem_flatMap.2 ⟨p, hp, by simp⟩

theorem Net.WF.mem_o (hw : n.WF) {p : Port (Key B)} (hp : p ∈ n.ports) : p.o ∈ n.nodes :=
  List.mem_flatMap.2 ⟨p, hp, by simp⟩

theorem nodes_inj {ps : List (Port (Key B))} (h : (ps.flatMap (fun p => [p.i, p.o])).Nodup) {p q : Port (Key B)}
    (hp : p ∈ ps) (hq : q ∈ ps) : (p.i = q.i → p = q) ∧ (p.o = q.o → p = q) ∧ p.i ≠ q.o := by
  induction ps with
  | nil => cases hp
  | cons a ps ih =>
    rw [List.flatMap_cons, List.nodup_append] at h
    obtain ⟨h1, h2, h3⟩ := h
    have ha : a.i ≠ a.o := by simpa using h1
    have hd : ∀ r ∈ ps, (a.i ≠ r.i ∧ a.i ≠ r.o) ∧ (a.o ≠ r.i ∧ a.o ≠ r.o) := by
      intro r hr
      have hi : r.i ∈ ps.flatMap (fun p => [p.i, p.o]) := List.mem_flatMap.2 ⟨r, hr, by simp⟩
      have ho : r.o ∈ ps.flatMap (fun p => [p.i, p.o]) := List.mem_flatMap.2 ⟨r, hr, by simp⟩
      exact ⟨⟨h3 _ (by simp) _ hi, h3 _ (by simp) _ ho⟩, h3 _ (by simp) _ hi, h3 _ (by simp) _ ho⟩
    rcases List.mem_cons.1 hp with rfl | hp' <;> rcases List.mem_cons.1 hq with rfl | hq'
    · exact ⟨fun _ => rfl, fun _ => rfl, ha⟩
    · exact ⟨fun e => absurd e (hd q hq').1.1, fun e => absurd e (hd q hq').2.2, (hd q hq').1.2⟩
    · exact ⟨fun e => absurd e.symm (hd p hp').1.1, fun e => absurd e.symm (hd p hp').2.2,
        fun e => (hd p hp').2.1 e.symm⟩
    · exact ih h2 hp' hq'

theorem Net.WF.postL_base (hw : n.WF) : ∀ p ∈ n.postL, p.2 = none := by
  intro p hp
  obtain ⟨m, hm, hp⟩ := List.mem_flatMap.1 hp
  obtain ⟨q, hq, rfl⟩ := List.mem_map.1 hp
  refine hw.base _ (hw.mem_o (hw.meters m hm q ?_))
  cases m with
  | volt t N V =>
    rw [Meter.terminals, List.mem_singleton] at hq
    subst hq
    exact List.mem_cons_self
  | amp d t I => cases hq

theorem Net.WF.preL_base (hw : n.WF) : ∀ p ∈ n.preL, p.2 = none := by
  intro p hp
  obtain ⟨m, hm, hp⟩ := List.mem_flatMap.1 hp
  obtain ⟨q, hq, rfl⟩ := List.mem_map.1 hp
  refine hw.base _ (hw.mem_i (hw.meters m hm q ?_))
  cases m with
  | volt t N V =>
    rw [Meter.terminals, List.mem_singleton] at hq
    subst hq
    exact List.mem_cons_self
  | amp d t I => cases hq

theorem Net.WF.joins_base (hw : n.WF) {o i : Key B} (h : Joins n.bonds o i) : o.2 = none ∧ i.2 = none ∧
    (∃ p ∈ n.ports, o = p.o) ∧ ∃ p ∈ n.ports, i = p.i := by
  obtain ⟨A, C, hAC, rfl, rfl⟩ := h
  have : A ∈ n.ports ∧ C ∈ n.ports := by
    rcases hAC with h | h
    · exact hw.ends _ h
    · exact (hw.ends _ h).symm
  exact ⟨hw.base _ (hw.mem_o this.1), hw.base _ (hw.mem_i this.2), ⟨A, this.1, rfl⟩, C, this.2, rfl⟩

/-- the links of a bond, spelled out -/
theorem link_iff (hw : n.WF) (o i a t : Key B) :
    Link n.post n.pre o i a t ↔ (o ∈ n.postL ∧ a = o ∧ t = posted o) ∨ (i ∈ n.preL ∧ t = i ∧ a = preposed i) ∨
      (a = n.out o ∧ t = if i ∈ n.preL then preposed i else i) := by
  have hpost := one_step n.post_get? posted_ne hw.postL_base
  have hpre := one_step n.pre_get? preposed_ne hw.preL_base
  constructor
  · rintro (⟨h1, h2⟩ | ⟨h1, h2⟩ | ⟨h1, h2⟩)
    · rw [n.post_get?] at h2
      split_ifs at h2 with ha
      cases h2
      rcases ((hpost o a).1).1 h1 with rfl | ⟨ho, rfl⟩
      · exact Or.inl ⟨ha, rfl, rfl⟩
      · exact absurd (hw.postL_base _ ha) (posted_ne o)
    · rw [n.pre_get?] at h2
      split_ifs at h2 with ha
      cases h2
      rcases ((hpre i t).1).1 h1 with rfl | ⟨ho, rfl⟩
      · exact Or.inr (Or.inl ⟨ha, rfl, rfl⟩)
      · exact absurd (hw.preL_base _ ha) (preposed_ne i)
    · exact Or.inr (Or.inr ⟨((hpost o a).2).1 h1, ((hpre i t).2).1 h2⟩)
  · rintro (⟨h, rfl, rfl⟩ | ⟨h, rfl, rfl⟩ | ⟨rfl, rfl⟩)
    · exact .post .refl (by rw [n.post_get?, if_pos h])
    · exact .pre .refl (by rw [n.pre_get?, if_pos h])
    · exact .across (((hpost o _).2).2 rfl) (((hpre i _).2).2 rfl)

theorem posted_inj {p q : Key B} (hp : p.2 = none) (hq : q.2 = none) (h : posted p = posted q) : p = q := by
  obtain ⟨p1, p2⟩ := p
  obtain ⟨q1, q2⟩ := q
  simp only [posted, Prod.mk.injEq] at h
  exact Prod.ext h.1 (hp.trans hq.symm)

theorem preposed_inj {p q : Key B} (hp : p.2 = none) (hq : q.2 = none) (h : preposed p = preposed q) : p = q := by
  obtain ⟨p1, p2⟩ := p
  obtain ⟨q1, q2⟩ := q
  simp only [preposed, Prod.mk.injEq] at h
  exact Prod.ext h.1 (hp.trans hq.symm)

theorem posted_ne_preposed {p q : Key B} (hp : p.2 = none) (hq : q.2 = none) : posted p ≠ preposed q := by
  intro h
  have := congrArg Prod.snd h
  simp [posted, preposed, hp, hq] at this

theorem Net.out_base (hw : n.WF) {o : Key B} : n.out o = o ∨ (o ∈ n.postL ∧ n.out o = posted o) := by
  unfold Net.out
  by_cases h : o ∈ n.postL
  · rw [if_pos h]; exact Or.inr ⟨h, rfl⟩
  · rw [if_neg h]; exact Or.inl rfl

variable (hw : n.WF) (hW : Wired n ports g) {k : K}
include hw hW

/-- the wave entering a bonded port -/
theorem req_in {o i : Key B} (hj : Joins n.bonds o i) {ks : List K} (hks : Dict.get? ports (o.1, none) = some ks)
    (hk : k ∈ ks) : lst g.req (i, k) = [(if i ∈ n.preL then preposed i else n.out o, k)] := by
  refine eq_singleton (hW.nodup _) ?_
  rintro ⟨a, ka⟩
  rw [hW.req]
  obtain ⟨ho, hi, -, -⟩ := hw.joins_base hj
  constructor
  · rintro ⟨rfl, o', i', hj', ks', h1, h2, hl⟩
    obtain ⟨ho', hi', -, -⟩ := hw.joins_base hj'
    dsimp only at hl
    rw [Prod.mk.injEq]
    refine ⟨?_, rfl⟩
    rcases (link_iff hw _ _ _ _).1 hl with ⟨h3, rfl, h4⟩ | ⟨h3, h4, h5⟩ | ⟨h3, h4⟩
    · exact absurd (h4 ▸ hi) (posted_ne _)
    · subst h4
      rw [if_pos h3]
      exact h5
    · by_cases hp : i' ∈ n.preL
      · rw [if_pos hp] at h4
        exact absurd (h4 ▸ hi) (preposed_ne _)
      · rw [if_neg hp] at h4
        subst h4
        rw [if_neg hp, h3, hW.unique _ _ _ hj' hj]
  · intro h
    rw [Prod.mk.injEq] at h
    obtain ⟨rfl, rfl⟩ := h
    refine ⟨rfl, o, i, hj, ks, hks, hk, (link_iff hw _ _ _ _).2 ?_⟩
    by_cases hp : i ∈ n.preL
    · rw [if_pos hp]
      exact Or.inr (Or.inl ⟨hp, rfl, rfl⟩)
    · rw [if_neg hp]
      exact Or.inr (Or.inr ⟨rfl, (if_neg hp).symm⟩)

/-- no bond leads to a wave leaving a port -/
theorem req_out {t : Key B} (ht : t.2 = none) (hj : ∀ o, ¬ Joins n.bonds o t) : lst g.req (t, k) = [] := by
  rw [List.eq_nil_iff_forall_not_mem]
  rintro ⟨a, ka⟩ h
  obtain ⟨-, o', i', hj', ks', h1, h2, hl⟩ := (hW.req _ _).1 h
  rcases (link_iff hw _ _ _ _).1 hl with ⟨h3, -, h4⟩ | ⟨h3, h4, h5⟩ | ⟨h3, h4⟩
  · dsimp only at h4
    exact absurd (h4 ▸ ht) (posted_ne _)
  · dsimp only at h4
    subst h4
    exact hj _ hj'
  · dsimp only at h4
    by_cases hp : i' ∈ n.preL
    · rw [if_pos hp] at h4
      exact absurd (h4 ▸ ht) (preposed_ne _)
    · rw [if_neg hp] at h4
      subst h4
      exact hj _ hj'

/-- the test point after a port -/
theorem req_post {o i : Key B} (hj : Joins n.bonds o i) (hp : o ∈ n.postL) {ks : List K}
    (hks : Dict.get? ports (o.1, none) = some ks) (hk : k ∈ ks) : lst g.req (posted o, k) = [(o, k)] := by
  refine eq_singleton (hW.nodup _) ?_
  rintro ⟨a, ka⟩
  rw [hW.req]
  obtain ⟨ho, hi, -, -⟩ := hw.joins_base hj
  constructor
  · rintro ⟨rfl, o', i', hj', ks', h1, h2, hl⟩
    obtain ⟨ho', hi', -, -⟩ := hw.joins_base hj'
    rcases (link_iff hw _ _ _ _).1 hl with ⟨h3, h4, h5⟩ | ⟨h3, h4, h5⟩ | ⟨h3, h4⟩
    · dsimp only at h4 h5
      rw [h4, posted_inj ho ho' h5]
    · dsimp only at h4
      exact absurd (h4 ▸ hi') (posted_ne _)
    · dsimp only at h4
      split_ifs at h4 with h6
      · exact absurd h4 (posted_ne_preposed ho hi')
      · exact absurd (h4 ▸ hi') (posted_ne _)
  · intro h
    rw [Prod.mk.injEq] at h
    obtain ⟨rfl, rfl⟩ := h
    exact ⟨rfl, a, i, hj, ks, hks, hk, (link_iff hw _ _ _ _).2 (Or.inl ⟨hp, rfl, rfl⟩)⟩

/-- the test point before a port -/
theorem req_pre {o i : Key B} (hj : Joins n.bonds o i) (hp : i ∈ n.preL) {ks : List K}
    (hks : Dict.get? ports (o.1, none) = some ks) (hk : k ∈ ks) : lst g.req (preposed i, k) = [(n.out o, k)] := by
  refine eq_singleton (hW.nodup _) ?_
  rintro ⟨a, ka⟩
  rw [hW.req]
  obtain ⟨ho, hi, -, -⟩ := hw.joins_base hj
  constructor
  · rintro ⟨rfl, o', i', hj', ks', h1, h2, hl⟩
    obtain ⟨ho', hi', -, -⟩ := hw.joins_base hj'
    rcases (link_iff hw _ _ _ _).1 hl with ⟨h3, h4, h5⟩ | ⟨h3, h4, h5⟩ | ⟨h3, h4⟩
    · dsimp only at h4 h5
      exact absurd h5.symm (posted_ne_preposed ho' hi)
    · dsimp only at h4
      exact absurd (h4 ▸ hi') (preposed_ne _)
    · dsimp only at h3 h4
      split_ifs at h4 with h6
      · obtain rfl := preposed_inj hi hi' h4
        rw [h3, hW.unique _ _ _ hj' hj]
      · exact absurd (h4 ▸ hi') (preposed_ne _)
  · intro h
    rw [Prod.mk.injEq] at h
    obtain ⟨rfl, rfl⟩ := h
    exact ⟨rfl, o, i, hj, ks, hks, hk, (link_iff hw _ _ _ _).2 (Or.inr (Or.inr ⟨rfl, (if_pos hp).symm⟩))⟩

end Incoming

/-! ## the couplings into the nodes -/

theorem fluct_into {env : Env (Key B) K F} {f : Fluct B} {e : List (Coupling (Key B) K F)} (h : f.setup env = .ok e)
    (hn : ∀ p, (env.keys p).Nodup) {k : K} (hk : k ∈ env.keys f.virt) (x : Key B × K → F) (t : Key B) :
    total e x (t, k) = (if f.port.i = t then 1 / 2 * x (f.virt, k) else 0) +
      (if f.port.o = t then (if f.voltage then -1 / 2 else 1 / 2) * x (f.virt, k) else 0) := by
  unfold Fluct.setup at h
  by_cases hv : f.voltage = true
  · rw [if_pos hv] at h
    unfold voltage_fluctuation_setup at h
    obtain ⟨c1, _, hb1, g1, rfl⟩ := blocks_cons h
    obtain ⟨c2, _, hb2, g2, rfl⟩ := blocks_cons g1
    obtain rfl := blocks_nil g2
    obtain ⟨_, hv1, e1⟩ := per_key_into hb1 (hn _) hk; cases hv1
    obtain ⟨_, hv2, e2⟩ := per_key_into hb2 (hn _) hk; cases hv2
    rw [total_append, total_append, total_nil, e1, e2, add_zero, if_pos hv]
  · rw [if_neg hv] at h
    unfold current_fluctuation_setup at h
    obtain ⟨c1, _, hb1, g1, rfl⟩ := blocks_cons h
    obtain ⟨c2, _, hb2, g2, rfl⟩ := blocks_cons g1
    obtain rfl := blocks_nil g2
    obtain ⟨_, hv1, e1⟩ := per_key_into hb1 (hn _) hk; cases hv1
    obtain ⟨_, hv2, e2⟩ := per_key_into hb2 (hn _) hk; cases hv2
    rw [total_append, total_append, total_nil, e1, e2, add_zero, if_neg hv]

theorem fluct_targets {env : Env (Key B) K F} {f : Fluct B} {e : List (Coupling (Key B) K F)} (h : f.setup env = .ok e) :
    Into (· ∈ [f.port.i, f.port.o]) e := by
  unfold Fluct.setup at h
  split_ifs at h
  all_goals
    refine blocks_into h ?_
    simp only [List.forall_mem_cons]
    refine ⟨?_, ?_, by simp⟩ <;> intro e he <;> refine (per_key_targets he).mono ?_ <;> rintro p rfl <;> simp

theorem meter_targets {env : Env (Key B) K F} {m : Meter B} {e : List (Coupling (Key B) K F)} (h : m.setup env = .ok e) :
    Into (· = m.target) e := by
  cases m with
  | volt t N V =>
    cases N with
    | none =>
      refine blocks_into h ?_
      simp only [List.append_nil, List.forall_mem_cons]
      exact ⟨fun e he => per_key_targets he, fun e he => per_key_targets he, by simp⟩
    | some N =>
      refine blocks_into h ?_
      simp only [List.cons_append, List.nil_append, List.forall_mem_cons]
      exact ⟨fun e he => per_key_targets he, fun e he => per_key_targets he, fun e he => per_key_targets he,
        fun e he => per_key_targets he, by simp⟩
  | amp d t I =>
    refine blocks_into h ?_
    simp only [List.forall_mem_cons]
    exact ⟨fun e he => per_key_targets he, fun e he => per_key_targets he, by simp⟩

section Totals
variable {n : Net B F} {env : Env (Key B) K F} {cs : List (Coupling (Key B) K F)} {k : K}

theorem flucts_total (hw : n.WF) {cf : List (Coupling (Key B) K F)}
    (h : blocks (n.flucts.map (fun f => f.setup env)) = .ok cf) (hn : ∀ p, (env.keys p).Nodup)
    (hk : ∀ f ∈ n.flucts, k ∈ env.keys f.virt) (x : Key B × K → F) {p : Port (Key B)} (hp : p ∈ n.ports) :
    total cf x (p.i, k) = (n.vn x k p + n.cn x k p) / 2 ∧ total cf x (p.o, k) = (n.cn x k p - n.vn x k p) / 2 := by
  obtain ⟨h1, h2⟩ := blocks_sum h
  have key : ∀ (l : List (Fluct B)), (∀ f ∈ l, f ∈ n.flucts) → ∀ t s : Key B, t = p.i → s = p.o →
      ((l.map (fun f => f.setup env)).map (part x (t, k))).sum =
        ((l.map (fun f => if f.voltage = true ∧ f.port = p then x (f.virt, k) else 0)).sum +
          (l.map (fun f => if f.voltage = false ∧ f.port = p then x (f.virt, k) else 0)).sum) / 2 ∧
      ((l.map (fun f => f.setup env)).map (part x (s, k))).sum =
        ((l.map (fun f => if f.voltage = false ∧ f.port = p then x (f.virt, k) else 0)).sum -
          (l.map (fun f => if f.voltage = true ∧ f.port = p then x (f.virt, k) else 0)).sum) / 2 := by
    intro l hl t s ht hs
    induction l with
    | nil => simp
    | cons f l ih =>
      obtain ⟨i1, i2⟩ := ih (fun f h => hl f (List.mem_cons_of_mem _ h))
      have hf := hl f List.mem_cons_self
      obtain ⟨e, he⟩ := h1 _ (List.mem_map_of_mem hf)
      obtain ⟨d1, d2, d3⟩ := nodes_inj hw.nodup (hw.flucts f hf) hp
      obtain ⟨-, -, d4⟩ := nodes_inj hw.nodup hp (hw.flucts f hf)
      have q1 : f.port.i = t ↔ f.port = p := by
        rw [ht]; exact ⟨d1, fun h => by rw [h]⟩
      have q2 : f.port.o = s ↔ f.port = p := by
        rw [hs]; exact ⟨d2, fun h => by rw [h]⟩
      have q3 : f.port.i ≠ s := by rw [hs]; exact d3
      have q4 : f.port.o ≠ t := by rw [ht]; exact fun h => d4 h.symm
      have hpart : ∀ u, part x (u, k) (f.setup env) = total e x (u, k) := by
        intro u
        rw [he]
        rfl
      simp only [List.map_cons, List.sum_cons, i1, i2, hpart, fluct_into he hn (hk f hf), if_neg q3, if_neg q4, q1, q2]
      by_cases hfp : f.port = p
      · cases hv : f.voltage
        · simp only [hfp, if_true, and_true, and_self, Bool.false_eq_true, if_false]
          constructor <;> ring
        · simp only [hfp, if_true, and_true, and_self, Bool.true_eq_false, if_false]
          constructor <;> ring
      · simp only [hfp, if_false, and_false]
        constructor <;> ring
  obtain ⟨k1, k2⟩ := key n.flucts (fun f h => h) _ _ rfl rfl
  exact ⟨by rw [h2]; exact k1, by rw [h2]; exact k2⟩

/-- the couplings of the elements into a wave leaving a port are those of the port's element -/
theorem els_total (hw : n.WF) {ce : List (Coupling (Key B) K F)}
    (h : blocks (n.els.map (fun el => el.setup env)) = .ok ce) (x : Key B × K → F) {el : Elem (Key B) F}
    (hel : el ∈ n.els) : ∃ c, el.setup env = .ok c ∧ ∀ p ∈ el.ports, total ce x (p.o, k) = total c x (p.o, k) := by
  obtain ⟨h1, h2⟩ := blocks_sum h
  obtain ⟨c, hc⟩ := h1 _ (List.mem_map_of_mem hel)
  refine ⟨c, hc, ?_⟩
  intro p hp
  obtain ⟨l1, l2, hl⟩ := List.append_of_mem hel
  have hnd := hw.nodup
  unfold Net.nodes Net.ports at hnd
  rw [hl] at h1
  rw [hl, List.flatMap_append, List.flatMap_cons, List.flatMap_append, List.flatMap_append, List.nodup_append] at hnd
  obtain ⟨-, hnd2, hd1⟩ := hnd
  rw [List.nodup_append] at hnd2
  obtain ⟨-, -, hd2⟩ := hnd2
  have zero : ∀ (l : List (Elem (Key B) F)), (∀ el' ∈ l, ∃ e, el'.setup env = .ok e) →
      (∀ q ∈ (l.flatMap Elem.ports), q.o ≠ p.o) → ((l.map (fun el => el.setup env)).map (part x (p.o, k))).sum = 0 := by
    intro l he hq
    apply List.sum_eq_zero
    intro v hv
    obtain ⟨b, hb, rfl⟩ := List.mem_map.1 hv
    obtain ⟨el', hel', rfl⟩ := List.mem_map.1 hb
    obtain ⟨e, he'⟩ := he el' hel'
    rw [he']
    refine total_zero (elem_targets he') ?_ x
    intro hm
    obtain ⟨q, hq', hqo⟩ := List.mem_map.1 hm
    exact hq q (List.mem_flatMap.2 ⟨el', hel', hq'⟩) hqo
  have hpm : p.o ∈ el.ports.flatMap (fun p => [p.i, p.o]) := List.mem_flatMap.2 ⟨p, hp, by simp⟩
  rw [h2, hl, List.map_append, List.map_cons, List.map_append, List.map_cons, List.sum_append, List.sum_cons,
    zero l1, zero l2, hc]
  · show 0 + (total c x (p.o, k) + 0) = _
    ring
  · intro el' hel'
    exact h1 _ (List.mem_map_of_mem (List.mem_append_right _ (List.mem_cons_of_mem _ hel')))
  · intro q hq e
    exact hd2 _ hpm _ (List.mem_flatMap.2 ⟨q, hq, by simp⟩) e.symm
  · intro el' hel'
    exact h1 _ (List.mem_map_of_mem (List.mem_append_left _ hel'))
  · intro q hq
    exact hd1 _ (List.mem_flatMap.2 ⟨q, hq, by simp⟩) _ (List.mem_append_left _ hpm)

theorem els_zero {ce : List (Coupling (Key B) K F)}
    (h : blocks (n.els.map (fun el => el.setup env)) = .ok ce) (x : Key B × K → F) {t : Key B}
    (ht : ∀ p ∈ n.ports, t ≠ p.o) : total ce x (t, k) = 0 := by
  refine total_zero (S := fun q => ∃ p ∈ n.ports, q = p.o) (blocks_into h ?_) ?_ x
  · intro b hb e he
    obtain ⟨el, hel, rfl⟩ := List.mem_map.1 hb
    refine (elem_targets he).mono ?_
    intro q hq
    obtain ⟨p, hp, rfl⟩ := List.mem_map.1 hq
    exact ⟨p, List.mem_flatMap.2 ⟨el, hel, hp⟩, rfl⟩
  · rintro ⟨p, hp, h⟩
    exact ht p hp h

theorem flucts_zero (hw : n.WF) {cf : List (Coupling (Key B) K F)}
    (h : blocks (n.flucts.map (fun f => f.setup env)) = .ok cf) (x : Key B × K → F) {t : Key B}
    (ht : t ∉ n.nodes) : total cf x (t, k) = 0 := by
  refine total_zero (S := (· ∈ n.nodes)) (blocks_into h ?_) ht x
  intro b hb e he
  obtain ⟨f, hf, rfl⟩ := List.mem_map.1 hb
  refine (fluct_targets he).mono ?_
  intro q hq
  simp only [List.mem_cons, List.not_mem_nil, or_false] at hq
  rcases hq with rfl | rfl
  · exact hw.mem_i (hw.flucts f hf)
  · exact hw.mem_o (hw.flucts f hf)

theorem meters_zero {cm : List (Coupling (Key B) K F)}
    (h : blocks (n.meters.map (fun m => m.setup env)) = .ok cm) (x : Key B × K → F) {t : Key B}
    (ht : ∀ m ∈ n.meters, t ≠ m.target) : total cm x (t, k) = 0 := by
  refine total_zero (S := fun q => ∃ m ∈ n.meters, q = m.target) (blocks_into h ?_) ?_ x
  · intro b hb e he
    obtain ⟨m, hm, rfl⟩ := List.mem_map.1 hb
    exact (meter_targets he).mono (fun q hq => ⟨m, hm, hq⟩)
  · rintro ⟨m, hm, h⟩
    exact ht m hm h

end Totals

/-- The law of an element refers to the voltages and currents at its ports only. -/
theorem law_congr {P : Type} [DecidableEq P] (el : Elem P F) {env : Env P K F} {k : K} {V I V' I' : Port P → F} {s : P → F}
    (hV : ∀ p ∈ el.ports, V p = V' p) (hI : ∀ p ∈ el.ports, I p = I' p) :
    el.Law env k V I s ↔ el.Law env k V' I' s := by
  cases el with
  | one t A =>
    have a := hV A (by simp [Elem.ports])
    have b := hI A (by simp [Elem.ports])
    cases t <;> simp only [Elem.Law, a, b]
  | two t A C =>
    have a := hV A (by simp [Elem.ports])
    have b := hI A (by simp [Elem.ports])
    have c := hV C (by simp [Elem.ports])
    have d := hI C (by simp [Elem.ports])
    cases t <;> simp only [Elem.Law, a, b, c, d]
  | connection ps =>
    simp only [Elem.ports] at hV hI
    simp only [Elem.Law]
    rw [List.map_congr_left hI]
    refine and_congr_left fun _ => ?_
    constructor
    · intro h p hp q hq
      rw [← hV p hp, ← hV q hq]
      exact h p hp q hq
    · intro h p hp q hq
      rw [hV p hp, hV q hq]
      exact h p hp q hq
  | cable l A C =>
    have a := hV A (by simp [Elem.ports])
    have b := hI A (by simp [Elem.ports])
    have c := hV C (by simp [Elem.ports])
    have d := hI C (by simp [Elem.ports])
    simp only [Elem.Law, a, b, c, d]
  | voltageSource v q A =>
    have a := hV A (by simp [Elem.ports])
    simp only [Elem.Law, a]
  | currentSource v q A =>
    have b := hI A (by simp [Elem.ports])
    simp only [Elem.Law, b]
  | voltageSourceBalanced v w q r A C =>
    have a := hV A (by simp [Elem.ports])
    have b := hI A (by simp [Elem.ports])
    have c := hV C (by simp [Elem.ports])
    have d := hI C (by simp [Elem.ports])
    simp only [Elem.Law, a, b, c, d]
  | currentSourceBalanced v q A C =>
    have b := hI A (by simp [Elem.ports])
    have d := hI C (by simp [Elem.ports])
    simp only [Elem.Law, b, d]
  | opAmp g p m out =>
    have a := hV p (by simp [Elem.ports])
    have b := hI p (by simp [Elem.ports])
    have c := hV m (by simp [Elem.ports])
    have d := hI m (by simp [Elem.ports])
    have e := hV out (by simp [Elem.ports])
    simp only [Elem.Law, a, b, c, d, e]
  | mech m =>
    cases m with
    | one t A =>
      have a := hV A (by simp [Elem.ports, Mech.ports])
      have b := hI A (by simp [Elem.ports, Mech.ports])
      simp only [Elem.Law, Mech.Law, a, b]
    | two t A C =>
      have a := hV A (by simp [Elem.ports, Mech.ports])
      have b := hI A (by simp [Elem.ports, Mech.ports])
      have c := hV C (by simp [Elem.ports, Mech.ports])
      have d := hI C (by simp [Elem.ports, Mech.ports])
      simp only [Elem.Law, Mech.Law, a, b, c, d]
    | cable l Loss rt A C =>
      have a := hV A (by simp [Elem.ports, Mech.ports])
      have b := hI A (by simp [Elem.ports, Mech.ports])
      have c := hV C (by simp [Elem.ports, Mech.ports])
      have d := hI C (by simp [Elem.ports, Mech.ports])
      simp only [Elem.Law, Mech.Law, a, b, c, d]
    | zconv y eps A C =>
      have a := hV A (by simp [Elem.ports, Mech.ports])
      have b := hI A (by simp [Elem.ports, Mech.ports])
      have c := hV C (by simp [Elem.ports, Mech.ports])
      have d := hI C (by simp [Elem.ports, Mech.ports])
      simp only [Elem.Law, Mech.Law, a, b, c, d]
    | lever l A C L =>
      have a := hV A (by simp [Elem.ports, Mech.ports])
      have b := hI A (by simp [Elem.ports, Mech.ports])
      have c := hV C (by simp [Elem.ports, Mech.ports])
      have d := hI C (by simp [Elem.ports, Mech.ports])
      have e := hV L (by simp [Elem.ports, Mech.ports])
      have f := hI L (by simp [Elem.ports, Mech.ports])
      simp only [Elem.Law, Mech.Law, a, b, c, d, e, f]
    | xyz dv l root A C L =>
      simp only [Elem.ports, Mech.ports, List.forall_mem_cons] at hV hI
      obtain ⟨v1, v2, v3, v4, v5, v6, v7, v8, v9, -⟩ := hV
      obtain ⟨i1, i2, i3, i4, i5, i6, i7, i8, i9, -⟩ := hI
      simp only [Elem.Law, Mech.Law, v1, v2, v3, v4, v5, v6, v7, v8, v9, i1, i2, i3, i4, i5, i6, i7, i8, i9]

section Main
variable {n : Net B F} {env : Env (Key B) K F} {cs : List (Coupling (Key B) K F)} {ports : Dict (Key B) (List K)}
  {g : SR (Key B × K)} {fuel : Nat} {k : K}

theorem couplings_split (h : n.couplings env = .ok cs) : ∃ ce cf cm, cs = ce ++ (cf ++ cm) ∧
    blocks (n.els.map (fun el => el.setup env)) = .ok ce ∧ blocks (n.flucts.map (fun f => f.setup env)) = .ok cf ∧
    blocks (n.meters.map (fun m => m.setup env)) = .ok cm := by
  unfold Net.couplings at h
  obtain ⟨ce, d, h1, h2, rfl⟩ := blocks_append h
  obtain ⟨cf, cm, h3, h4, rfl⟩ := blocks_append h2
  exact ⟨ce, cf, cm, rfl, h1, h3, h4⟩

theorem Net.WF.partner (hw : n.WF) {p : Port (Key B)} (hp : p ∈ n.ports) :
    ∃ q ∈ n.ports, (q, p) ∈ n.bonds ∨ (p, q) ∈ n.bonds := by
  obtain ⟨ab, hab, rfl | rfl⟩ := hw.bonded p hp
  · exact ⟨ab.2, (hw.ends _ hab).2, Or.inr hab⟩
  · exact ⟨ab.1, (hw.ends _ hab).1, Or.inl hab⟩

theorem Net.WF.terminal (hw : n.WF) {t : Port (Key B)} (ht : t ∈ n.meters.flatMap Meter.terminals) :
    t ∈ n.ports ∧ t.o ∈ n.postL ∧ t.i ∈ n.preL ∧ posted t.o ∈ n.tests ∧ preposed t.i ∈ n.tests := by
  obtain ⟨m, hm, ht'⟩ := List.mem_flatMap.1 ht
  refine ⟨?_, List.mem_flatMap.2 ⟨m, hm, List.mem_map_of_mem ht'⟩, List.mem_flatMap.2 ⟨m, hm, List.mem_map_of_mem ht'⟩,
    List.mem_flatMap.2 ⟨t, ht, by simp⟩, List.mem_flatMap.2 ⟨t, ht, by simp⟩⟩
  refine hw.meters m hm t ?_
  cases m with
  | volt t' N V =>
    rw [Meter.terminals, List.mem_singleton] at ht'
    subst ht'
    exact List.mem_cons_self
  | amp d t I => cases ht'

theorem mem_postL {o : Key B} (h : o ∈ n.postL) : ∃ t ∈ n.meters.flatMap Meter.terminals, t.o = o := by
  obtain ⟨m, hm, h⟩ := List.mem_flatMap.1 h
  obtain ⟨t, ht, rfl⟩ := List.mem_map.1 h
  exact ⟨t, List.mem_flatMap.2 ⟨m, hm, ht⟩, rfl⟩

theorem mem_preL {o : Key B} (h : o ∈ n.preL) : ∃ t ∈ n.meters.flatMap Meter.terminals, t.i = o := by
  obtain ⟨m, hm, h⟩ := List.mem_flatMap.1 h
  obtain ⟨t, ht, rfl⟩ := List.mem_map.1 h
  exact ⟨t, List.mem_flatMap.2 ⟨m, hm, ht⟩, rfl⟩

/-- The equations of the nodes as equations between waves. -/
theorem waves_iff (hcs : n.couplings env = .ok cs) (hl : n.links ports fuel = .ok (some g)) (hw : n.WF)
    (hn : ∀ p, (env.keys p).Nodup) (hkeys : ∀ q, env.keys q = (Dict.get? ports (q.1, none)).getD [])
    (hk : ∀ q ∈ n.nodes, k ∈ env.keys q) (hkf : ∀ f ∈ n.flucts, k ∈ env.keys f.virt) (x : Key B × K → F) :
    (∀ t ∈ n.nodes ++ n.tests, NodeEq g cs x (t, k)) ↔
    (∀ A C, (A, C) ∈ n.bonds ∨ (C, A) ∈ n.bonds → x (C.i, k) - (n.vn x k C + n.cn x k C) / 2 = x (A.o, k)) ∧
    (∀ el ∈ n.els, ∃ c, el.setup env = .ok c ∧ ∀ p ∈ el.ports,
      x (p.o, k) - (n.cn x k p - n.vn x k p) / 2 = total c x (p.o, k)) ∧
    ∀ t ∈ n.meters.flatMap Meter.terminals, x (posted t.o, k) = x (t.o, k) ∧
      x (preposed t.i, k) = x (t.i, k) - (n.vn x k t + n.cn x k t) / 2 := by
  obtain ⟨ce, cf, cm, rfl, he, hf, hm⟩ := couplings_split hcs
  have hW := links_wired hl
  have hks : ∀ q ∈ n.nodes, ∃ ks, Dict.get? ports (q.1, none) = some ks ∧ k ∈ ks := by
    intro q hq
    have := hk q hq
    rw [hkeys] at this
    cases hg : Dict.get? ports (q.1, none) with
    | none => rw [hg] at this; cases this
    | some ks => rw [hg] at this; exact ⟨ks, rfl, this⟩
  have hmt : ∀ q ∈ n.nodes, total cm x (q, k) = 0 := by
    intro q hq
    refine meters_zero hm x ?_
    rintro m hm' rfl
    exact (hw.output m hm').1 hq
  have htest : ∀ q : Key B, q.2 ≠ none → total (ce ++ (cf ++ cm)) x (q, k) = 0 := by
    intro q hq
    have hq' : q ∉ n.nodes := fun h => hq (hw.base q h)
    rw [total_append, total_append, els_zero he x, flucts_zero hw hf x hq', meters_zero hm x]
    · ring
    · rintro m hm' rfl
      exact hq (hw.output m hm').2
    · rintro p hp rfl
      exact hq' (hw.mem_o hp)
  have hin : ∀ C ∈ n.ports, total (ce ++ (cf ++ cm)) x (C.i, k) = (n.vn x k C + n.cn x k C) / 2 := by
    intro C hC
    rw [total_append, total_append, els_zero he x, (flucts_total hw hf hn hkf x hC).1, hmt _ (hw.mem_i hC)]
    · ring
    · intro p hp
      exact (nodes_inj hw.nodup hC hp).2.2
  have hjoin : ∀ A C : Port (Key B), (A, C) ∈ n.bonds ∨ (C, A) ∈ n.bonds →
      Joins n.bonds A.o C.i ∧ A ∈ n.ports ∧ C ∈ n.ports := by
    intro A C h
    refine ⟨⟨A, C, h, rfl, rfl⟩, ?_⟩
    rcases h with h | h
    · exact hw.ends _ h
    · exact (hw.ends _ h).symm
  -- the single equations
  have E1 : ∀ A C : Port (Key B), (A, C) ∈ n.bonds ∨ (C, A) ∈ n.bonds → (NodeEq g (ce ++ (cf ++ cm)) x (C.i, k) ↔
      x (C.i, k) = x (if C.i ∈ n.preL then preposed C.i else n.out A.o, k) + (n.vn x k C + n.cn x k C) / 2) := by
    intro A C h
    obtain ⟨h1, h2, h3⟩ := hjoin A C h
    obtain ⟨ks, hks1, hks2⟩ := hks _ (hw.mem_o h2)
    unfold NodeEq
    rw [req_in hw hW h1 hks1 hks2, hin C h3]
    simp
  have E2 : ∀ el ∈ n.els, ∀ c, el.setup env = .ok c → ∀ p ∈ el.ports, (NodeEq g (ce ++ (cf ++ cm)) x (p.o, k) ↔
      x (p.o, k) = total c x (p.o, k) + (n.cn x k p - n.vn x k p) / 2) := by
    intro el hel c hc p hp
    obtain ⟨c', hc', ht⟩ := els_total (k := k) hw he x hel
    rw [hc] at hc'
    cases hc'
    have hpp : p ∈ n.ports := List.mem_flatMap.2 ⟨el, hel, hp⟩
    unfold NodeEq
    rw [req_out hw hW (hw.base _ (hw.mem_o hpp)), total_append, total_append, ht p hp,
      (flucts_total hw hf hn hkf x hpp).2, hmt _ (hw.mem_o hpp)]
    · simp
    · intro o hj
      obtain ⟨-, -, -, q, hq, hq'⟩ := hw.joins_base hj
      exact (nodes_inj hw.nodup hq hpp).2.2 hq'.symm
  have E3 : ∀ t ∈ n.meters.flatMap Meter.terminals, (NodeEq g (ce ++ (cf ++ cm)) x (posted t.o, k) ↔
      x (posted t.o, k) = x (t.o, k)) := by
    intro t ht
    obtain ⟨h1, h2, h3, h4, h5⟩ := hw.terminal ht
    obtain ⟨q, hq, hqt⟩ := hw.partner h1
    obtain ⟨ks, hks1, hks2⟩ := hks _ (hw.mem_o h1)
    unfold NodeEq
    rw [req_post hw hW (hjoin t q hqt.symm).1 h2 hks1 hks2, htest _ (posted_ne _)]
    simp
  have E4 : ∀ t ∈ n.meters.flatMap Meter.terminals, ∀ q, (q, t) ∈ n.bonds ∨ (t, q) ∈ n.bonds →
      (NodeEq g (ce ++ (cf ++ cm)) x (preposed t.i, k) ↔ x (preposed t.i, k) = x (n.out q.o, k)) := by
    intro t ht q hqt
    obtain ⟨h1, h2, h3, h4, h5⟩ := hw.terminal ht
    obtain ⟨hj, hq, -⟩ := hjoin q t hqt
    obtain ⟨ks, hks1, hks2⟩ := hks _ (hw.mem_o hq)
    unfold NodeEq
    rw [req_pre hw hW hj h3 hks1 hks2, htest _ (preposed_ne _)]
    simp
  constructor
  · intro H
    have hout : ∀ o, x (n.out o, k) = x (o, k) := by
      intro o
      rcases Net.out_base hw (o := o) with h | ⟨h, h'⟩
      · rw [h]
      · rw [h']
        obtain ⟨t, ht, rfl⟩ := mem_postL h
        exact (E3 t ht).1 (H _ (List.mem_append_right _ (hw.terminal ht).2.2.2.1))
    have hpre : ∀ A C : Port (Key B), (A, C) ∈ n.bonds ∨ (C, A) ∈ n.bonds → C.i ∈ n.preL →
        x (preposed C.i, k) = x (A.o, k) := by
      intro A C h hC
      obtain ⟨t, ht, hti⟩ := mem_preL hC
      obtain ⟨-, -, hCp⟩ := hjoin A C h
      obtain rfl := (nodes_inj hw.nodup (hw.terminal ht).1 hCp).1 hti
      rw [(E4 t ht A h).1 (H _ (List.mem_append_right _ (hw.terminal ht).2.2.2.2)), hout]
    have hbond : ∀ A C : Port (Key B), (A, C) ∈ n.bonds ∨ (C, A) ∈ n.bonds →
        x (C.i, k) - (n.vn x k C + n.cn x k C) / 2 = x (A.o, k) := by
      intro A C h
      have h1 := (E1 A C h).1 (H _ (List.mem_append_left _ (hw.mem_i (hjoin A C h).2.2)))
      by_cases hC : C.i ∈ n.preL
      · rw [if_pos hC, hpre A C h hC] at h1
        linear_combination h1
      · rw [if_neg hC, hout] at h1
        linear_combination h1
    refine ⟨hbond, ?_, ?_⟩
    · intro el hel
      obtain ⟨c, hc, -⟩ := els_total (k := k) hw he x hel
      refine ⟨c, hc, ?_⟩
      intro p hp
      have := (E2 el hel c hc p hp).1 (H _ (List.mem_append_left _ (hw.mem_o (List.mem_flatMap.2 ⟨el, hel, hp⟩))))
      linear_combination this
    · intro t ht
      refine ⟨(E3 t ht).1 (H _ (List.mem_append_right _ (hw.terminal ht).2.2.2.1)), ?_⟩
      obtain ⟨q, hq, hqt⟩ := hw.partner (hw.terminal ht).1
      rw [hpre q t hqt (hw.terminal ht).2.2.1, hbond q t hqt]
  · rintro ⟨H1, H2, H3⟩
    have hout : ∀ o, x (n.out o, k) = x (o, k) := by
      intro o
      rcases Net.out_base hw (o := o) with h | ⟨h, h'⟩
      · rw [h]
      · rw [h']
        obtain ⟨t, ht, rfl⟩ := mem_postL h
        exact (H3 t ht).1
    intro t ht
    rcases List.mem_append.1 ht with ht | ht
    · obtain ⟨p, hp, ht⟩ := List.mem_flatMap.1 ht
      simp only [List.mem_cons, List.not_mem_nil, or_false] at ht
      rcases ht with rfl | rfl
      · obtain ⟨q, hq, hqp⟩ := hw.partner hp
        refine (E1 q p hqp).2 ?_
        by_cases hC : p.i ∈ n.preL
        · obtain ⟨t, ht', hti⟩ := mem_preL hC
          obtain rfl := (nodes_inj hw.nodup (hw.terminal ht').1 hp).1 hti
          rw [if_pos hC, (H3 t ht').2]
          ring
        · rw [if_neg hC, hout, ← H1 q p hqp]
          ring
      · obtain ⟨el, hel, hpe⟩ := List.mem_flatMap.1 hp
        obtain ⟨c, hc, h⟩ := H2 el hel
        refine (E2 el hel c hc p hpe).2 ?_
        rw [← h p hpe]
        ring
    · obtain ⟨t', ht', ht⟩ := List.mem_flatMap.1 ht
      simp only [List.mem_cons, List.not_mem_nil, or_false] at ht
      rcases ht with rfl | rfl
      · exact (E3 t' ht').2 (H3 t' ht').1
      · obtain ⟨q, hq, hqt⟩ := hw.partner (hw.terminal ht').1
        refine (E4 t' ht' q hqt).2 ?_
        rw [hout, (H3 t' ht').2, H1 q t' hqt]

/-- **C55.** The fields solve the equations of all waves and test points at the key `k` exactly when

* across every bond the voltages are equal and the currents opposite,
* every element obeys its law, with the voltage fluctuations of a port in series and its current fluctuations in
  parallel to the port, and
* the test points of the voltage readouts carry the waves on the bond side of the port. -/
theorem C55_circuit (hcs : n.couplings env = .ok cs) (hl : n.links ports fuel = .ok (some g)) (hw : n.WF)
    (hn : ∀ p, (env.keys p).Nodup) (hkeys : ∀ q, env.keys q = (Dict.get? ports (q.1, none)).getD [])
    (hZe : env.Ze ≠ 0) (h2 : (2 : F) ≠ 0) (hk : ∀ q ∈ n.nodes, k ∈ env.keys q)
    (hkf : ∀ f ∈ n.flucts, k ∈ env.keys f.virt) (hks : ∀ el ∈ n.els, ∀ q ∈ el.signals, k ∈ env.keys q)
    (x : Key B × K → F) :
    (∀ t ∈ n.nodes ++ n.tests, NodeEq g cs x (t, k)) ↔
    (∀ ab ∈ n.bonds, n.V x k ab.1 = n.V x k ab.2 ∧ n.I env x k ab.1 + n.I env x k ab.2 = 0) ∧
    (∀ el ∈ n.els, el.Law env k (fun p => n.V x k p + n.vn x k p) (fun p => n.I env x k p + n.cn x k p / env.Ze)
      (fun q => x (q, k))) ∧
    ∀ t ∈ n.meters.flatMap Meter.terminals, x (preposed t.i, k) = (n.V x k t + env.Ze * n.I env x k t) / 2 ∧
      x (posted t.o, k) = (n.V x k t - env.Ze * n.I env x k t) / 2 := by
  rw [waves_iff hcs hl hw hn hkeys hk hkf x]
  have hVI : ∀ p, n.V x k p + env.Ze * n.I env x k p = 2 * (x (p.i, k) - (n.vn x k p + n.cn x k p) / 2) ∧
      n.V x k p - env.Ze * n.I env x k p = 2 * x (p.o, k) := by
    intro p
    unfold Net.V Net.I
    rw [mul_div_cancel₀ _ hZe]
    exact ⟨by ring, by ring⟩
  have hhalf : ∀ a : F, 2 * a / 2 = a := fun a => mul_div_cancel_left₀ a h2
  have hV' : ∀ p, n.V x k p + n.vn x k p = x (p.i, k) + (x (p.o, k) - (n.cn x k p - n.vn x k p) / 2) := by
    intro p
    unfold Net.V
    have := hhalf (n.vn x k p)
    linear_combination -this
  have hI' : ∀ p, n.I env x k p + n.cn x k p / env.Ze =
      (x (p.i, k) - (x (p.o, k) - (n.cn x k p - n.vn x k p) / 2)) / env.Ze := by
    intro p
    unfold Net.I
    rw [← add_div]
    congr 1
    have := hhalf (n.cn x k p)
    linear_combination -this
  refine and_congr ?_ (and_congr ?_ ?_)
  · have pair : ∀ A C : Port (Key B), (x (C.i, k) - (n.vn x k C + n.cn x k C) / 2 = x (A.o, k) ∧
        x (A.i, k) - (n.vn x k A + n.cn x k A) / 2 = x (C.o, k)) ↔
        n.V x k A = n.V x k C ∧ n.I env x k A + n.I env x k C = 0 := by
      intro A C
      obtain ⟨a1, a2⟩ := hVI A
      obtain ⟨c1, c2⟩ := hVI C
      constructor
      · rintro ⟨e1, e2⟩
        constructor
        · apply mul_left_cancel₀ h2
          linear_combination a1 + a2 - c1 - c2 + 2 * e2 - 2 * e1
        · apply mul_left_cancel₀ (mul_ne_zero h2 hZe)
          linear_combination a1 - a2 + c1 - c2 + 2 * e2 + 2 * e1
      · rintro ⟨e1, e2⟩
        constructor
        · apply mul_left_cancel₀ h2
          linear_combination -c1 + a2 - e1 + env.Ze * e2
        · apply mul_left_cancel₀ h2
          linear_combination -a1 + c2 + e1 + env.Ze * e2
    constructor
    · rintro H ⟨A, C⟩ hAC
      exact (pair A C).1 ⟨H A C (Or.inl hAC), H C A (Or.inr hAC)⟩
    · rintro H A C (h | h)
      · exact ((pair A C).2 (H _ h)).1
      · exact ((pair C A).2 (H _ h)).2
  · apply forall_congr'
    intro el
    apply forall_congr'
    intro hel
    have hports : ∀ p ∈ el.ports, p ∈ n.ports := fun p hp => List.mem_flatMap.2 ⟨el, hel, hp⟩
    have hnd : (el.ports.map Port.o).Nodup := by
      obtain ⟨l1, l2, hl'⟩ := List.append_of_mem hel
      have hnd := hw.nodup
      unfold Net.nodes Net.ports at hnd
      rw [hl', List.flatMap_append, List.flatMap_cons, List.flatMap_append, List.flatMap_append, List.nodup_append] at hnd
      obtain ⟨-, hnd2, -⟩ := hnd
      rw [List.nodup_append] at hnd2
      have hnd3 := hnd2.1
      clear hnd2
      generalize el.ports = ps at hnd3
      induction ps with
      | nil => exact List.nodup_nil
      | cons a ps ih =>
        rw [List.flatMap_cons, List.nodup_append] at hnd3
        rw [List.map_cons, List.nodup_cons]
        refine ⟨?_, ih hnd3.2.1⟩
        intro hm
        obtain ⟨q, hq, hqo⟩ := List.mem_map.1 hm
        exact hnd3.2.2 a.o (by simp) q.o (List.mem_flatMap.2 ⟨q, hq, by simp⟩) hqo.symm
    obtain ⟨ce, cf, cm, -, he, hf, -⟩ := couplings_split hcs
    obtain ⟨c, hc, -⟩ := els_total (k := k) hw he x hel
    have hb : ∀ p ∈ el.ports, x (p.o, k) - total cf x (p.o, k) = x (p.o, k) - (n.cn x k p - n.vn x k p) / 2 := by
      intro p hp
      rw [(flucts_total hw hf hn hkf x (hports p hp)).2]
    rw [law_congr el (V' := fun p => x (p.i, k) + (x (p.o, k) - total cf x (p.o, k)))
      (I' := fun p => (x (p.i, k) - (x (p.o, k) - total cf x (p.o, k))) / env.Ze)
      (fun p hp => by rw [hV', hb p hp]) (fun p hp => by rw [hI', hb p hp]),
      ← C42_element hc hn hZe h2 (fun p hp => hk _ (hw.mem_i (hports p hp))) (hks el hel) hnd x
        (fun q => x (q, k) - total cf x (q, k))]
    constructor
    · rintro ⟨c', hc', h⟩ p hp
      rw [hc] at hc'
      cases hc'
      rw [hb p hp]
      exact h p hp
    · intro h
      refine ⟨c, hc, fun p hp => ?_⟩
      rw [← hb p hp]
      exact h p hp
  · apply forall_congr'
    intro t
    apply forall_congr'
    intro ht
    rw [(hVI t).1, (hVI t).2, hhalf, hhalf]
    exact and_comm


/-- the equation of a readout: what it writes is the sum of its own couplings -/
theorem meter_node (hcs : n.couplings env = .ok cs) (hl : n.links ports fuel = .ok (some g)) (hw : n.WF)
    {m : Meter B} (hm : m ∈ n.meters) :
    ∃ e, m.setup env = .ok e ∧ ∀ x : Key B × K → F, NodeEq g cs x (m.target, k) ↔
      x (m.target, k) = total e x (m.target, k) := by
  obtain ⟨ce, cf, cm, rfl, he, hf, hmm⟩ := couplings_split hcs
  have hW := links_wired hl
  obtain ⟨h1, h2⟩ := blocks_sum hmm
  obtain ⟨e, hme⟩ := h1 _ (List.mem_map_of_mem hm)
  refine ⟨e, hme, fun x => ?_⟩
  obtain ⟨o1, o2⟩ := hw.output m hm
  unfold NodeEq
  rw [req_out hw hW o2, total_append, total_append, els_zero he x, flucts_zero hw hf x o1, h2]
  · obtain ⟨l1, l2, hl'⟩ := List.append_of_mem hm
    have ho := hw.outputs
    rw [hl', List.map_append, List.map_cons, List.nodup_append, List.nodup_cons] at ho
    obtain ⟨-, ⟨ho2, -⟩, ho1⟩ := ho
    have zero : ∀ l : List (Meter B), (∀ m' ∈ l, m' ∈ n.meters) → (∀ m' ∈ l, m'.target ≠ m.target) →
        ((l.map (fun m => m.setup env)).map (part x (m.target, k))).sum = 0 := by
      intro l hm' ht
      apply List.sum_eq_zero
      intro v hv
      obtain ⟨b, hb, rfl⟩ := List.mem_map.1 hv
      obtain ⟨m', hml, rfl⟩ := List.mem_map.1 hb
      obtain ⟨e', he'⟩ := h1 _ (List.mem_map_of_mem (hm' m' hml))
      rw [he']
      exact total_zero (meter_targets he') (fun h => ht m' hml h.symm) x
    rw [hl', List.map_append, List.map_cons, List.map_append, List.map_cons, List.sum_append, List.sum_cons, zero l1,
      zero l2, hme]
    · simp [part]
    · intro m' h'
      rw [hl']
      exact List.mem_append_right _ (List.mem_cons_of_mem _ h')
    · intro m' h' e
      exact ho2 (e ▸ List.mem_map_of_mem h')
    · intro m' h'
      rw [hl']
      exact List.mem_append_left _ h'
    · intro m' h' e
      exact ho1 _ (List.mem_map_of_mem h') _ List.mem_cons_self e
  · intro p hp e
    exact o1 (e ▸ hw.mem_o hp)
  · intro o hj
    obtain ⟨-, -, -, q, hq, hq'⟩ := hw.joins_base hj
    exact o1 (hq' ▸ hw.mem_i hq)

/-- what a readout writes is the sum of its own couplings -/
theorem meter_eq (hcs : n.couplings env = .ok cs) (hl : n.links ports fuel = .ok (some g)) (hw : n.WF)
    (x : Key B × K → F) {m : Meter B} (hm : m ∈ n.meters) (h : NodeEq g cs x (m.target, k)) :
    ∃ e, m.setup env = .ok e ∧ x (m.target, k) = total e x (m.target, k) := by
  obtain ⟨e, he, h'⟩ := meter_node (k := k) hcs hl hw hm
  exact ⟨e, he, (h' x).1 h⟩

/-- **C55, voltage readouts.** A voltage readout reads the voltage on the bond side of its terminal.  A negative
terminal is not read on the bond side: half of the fluctuations attached to it are added to its voltage. -/
theorem C55_voltage_readout (hcs : n.couplings env = .ok cs) (hl : n.links ports fuel = .ok (some g)) (hw : n.WF)
    (hn : ∀ p, (env.keys p).Nodup) (hkeys : ∀ q, env.keys q = (Dict.get? ports (q.1, none)).getD [])
    (hZe : env.Ze ≠ 0) (h2 : (2 : F) ≠ 0) (hk : ∀ q ∈ n.nodes, k ∈ env.keys q)
    (hkf : ∀ f ∈ n.flucts, k ∈ env.keys f.virt) (hks : ∀ el ∈ n.els, ∀ q ∈ el.signals, k ∈ env.keys q)
    (x : Key B × K → F) (hx : ∀ t ∈ n.nodes ++ n.tests, NodeEq g cs x (t, k))
    {t : Port (Key B)} {N : Option (Port (Key B))} {V : Key B} (hm : Meter.volt t N V ∈ n.meters)
    (hV : NodeEq g cs x (V, k)) :
    x (V, k) = n.V x k t -
      (match N with
        | none => 0
        | some N => n.V x k N + (n.vn x k N + n.cn x k N) / 2) := by
  obtain ⟨e, he, hxe⟩ := meter_eq hcs hl hw x hm hV
  obtain ⟨-, -, ht⟩ := (C55_circuit hcs hl hw hn hkeys hZe h2 hk hkf hks x).1 hx
  obtain ⟨ht1, ht2⟩ := ht t (List.mem_flatMap.2 ⟨_, hm, List.mem_singleton.2 rfl⟩)
  have htp : t ∈ n.ports := hw.meters _ hm t List.mem_cons_self
  have ki : k ∈ env.keys (preposed t.i) := by
    rw [hkeys]
    have := hk _ (hw.mem_i htp)
    rwa [hkeys] at this
  have ko : k ∈ env.keys (posted t.o) := by
    rw [hkeys]
    have := hk _ (hw.mem_o htp)
    rwa [hkeys] at this
  have hsum : x (preposed t.i, k) + x (posted t.o, k) = n.V x k t := by
    rw [ht1, ht2, ← add_div]
    rw [div_eq_iff h2]
    ring
  change x (V, k) = total e x (V, k) at hxe
  rw [hxe]
  cases N with
  | none =>
    replace he : voltage_readout_setup env (preposed t.i) (posted t.o) none V = .ok e := he
    unfold voltage_readout_setup at he
    obtain ⟨c1, _, hb1, g1, rfl⟩ := blocks_cons he
    obtain ⟨c2, _, hb2, g2, rfl⟩ := blocks_cons g1
    obtain rfl := blocks_nil g2
    obtain ⟨_, hv1, e1⟩ := per_key_into hb1 (hn _) ki; cases hv1
    obtain ⟨_, hv2, e2⟩ := per_key_into hb2 (hn _) ko; cases hv2
    rw [total_append, total_append, total_nil, e1, e2, if_pos rfl, if_pos rfl, ← hsum]
    ring
  | some N =>
    have hNp : N ∈ n.ports := hw.meters _ hm N (by simp [Meter.ports])
    replace he : voltage_readout_setup env (preposed t.i) (posted t.o) (some N) V = .ok e := he
    unfold voltage_readout_setup at he
    obtain ⟨c1, _, hb1, g1, rfl⟩ := blocks_cons he
    obtain ⟨c2, _, hb2, g2, rfl⟩ := blocks_cons g1
    obtain ⟨c3, _, hb3, g3, rfl⟩ := blocks_cons g2
    obtain ⟨c4, _, hb4, g4, rfl⟩ := blocks_cons g3
    obtain rfl := blocks_nil g4
    obtain ⟨_, hv1, e1⟩ := per_key_into hb1 (hn _) ki; cases hv1
    obtain ⟨_, hv2, e2⟩ := per_key_into hb2 (hn _) ko; cases hv2
    obtain ⟨_, hv3, e3⟩ := per_key_into hb3 (hn _) (hk _ (hw.mem_i hNp)); cases hv3
    obtain ⟨_, hv4, e4⟩ := per_key_into hb4 (hn _) (hk _ (hw.mem_o hNp)); cases hv4
    rw [total_append, total_append, total_append, total_append, total_nil, e1, e2, e3, e4, if_pos rfl, if_pos rfl,
      if_pos rfl, if_pos rfl, ← hsum]
    simp only [Net.V]
    ring

/-- **C55, current readouts.** A current readout reads the current on the bond side of its terminal plus half of the
fluctuations attached to the terminal, over `Ze`. -/
theorem C55_current_readout (hcs : n.couplings env = .ok cs) (hl : n.links ports fuel = .ok (some g)) (hw : n.WF)
    (hn : ∀ p, (env.keys p).Nodup) (hZe : env.Ze ≠ 0) (hk : ∀ q ∈ n.nodes, k ∈ env.keys q)
    (x : Key B × K → F) {inward : Bool} {t : Port (Key B)} {I : Key B} (hm : Meter.amp inward t I ∈ n.meters)
    (hI : NodeEq g cs x (I, k)) :
    x (I, k) = (if inward then 1 else -1) * (n.I env x k t + (n.vn x k t + n.cn x k t) / 2 / env.Ze) := by
  obtain ⟨e, he, hxe⟩ := meter_eq hcs hl hw x hm hI
  have htp : t ∈ n.ports := hw.meters _ hm t List.mem_cons_self
  change x (I, k) = total e x (I, k) at hxe
  rw [hxe]
  replace he : current_readout_setup env inward t I = .ok e := he
  unfold current_readout_setup at he
  obtain ⟨c1, _, hb1, g1, rfl⟩ := blocks_cons he
  obtain ⟨c2, _, hb2, g2, rfl⟩ := blocks_cons g1
  obtain rfl := blocks_nil g2
  obtain ⟨v1, hv1, e1⟩ := per_key_into hb1 (hn _) (hk _ (hw.mem_i htp))
  obtain ⟨v2, hv2, e2⟩ := per_key_into hb2 (hn _) (hk _ (hw.mem_o htp))
  unfold pdiv at hv1 hv2
  rw [if_neg hZe] at hv1 hv2
  injection hv1 with hv1
  injection hv2 with hv2
  subst hv1 hv2
  rw [total_append, total_append, total_nil, e1, e2, if_pos rfl, if_pos rfl]
  unfold Net.I
  field_simp
  ring

end Main

end Circuit
