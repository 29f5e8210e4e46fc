import Mathlib.Data.Set.Finite.Basic
import Mathlib.Data.Set.Finite.Lattice
import Mathlib.Data.Pi.Interval
import Mathlib.Data.Int.Interval
import Mathlib.Order.Interval.Set.Defs
import Mathlib.Data.Set.Finite.Range
import Verif.Fill.Exact
import Verif.Fill.Needs

/-! # C93-C96: the keys that the worklist leaves at the ports -/

set_option linter.unusedSectionVars false

namespace Fill
open Py Ports Optics Circuit Inject

variable {E P O K R F : Type} [DecidableEq E] [DecidableEq P] [DecidableEq O] [DecidableEq K] [AddCommGroup K]
  [AddCommGroup R] [LinearOrder R] [IsOrderedAddMonoid R] [Field F] [StarRing F] [DecidableEq F]

/-- The system `S` is built of the elements `el`: an element owns the ports that it reads, its methods are those of the model, it
fits the rules `A`; bonds join ports of the same kind.  `wires` are the bonds that are listed among the elements for their
couplings. -/
structure Built (S : Sys E P (Key O K)) (el : E → FElem P O K R F) (A : Rule P O K R) : Prop where
  wf : S.WF
  handler : ∀ o, ∃ ssp, S.handler o = some ssp ∧ Lists ssp ((el o).ports A.reject A.center)
  initial : ∀ o, ∃ reqs, S.initial o = some reqs ∧ ∀ r, r ∈ reqs ↔ r ∈ (el o).initial
  own : ∀ o, ∀ b ∈ (el o).ports A.reject A.center, ∀ p ∈ b.reads, S.port_owners.get? p = some o
  fits : ∀ o, A.Fits (el o)
  bonds : ∀ p q, S.Conn p q → S.Port q → A.kind p = A.kind q
  wires : ∀ o a b, el o = .optical (.owire a b) ∨ el o = .optical (.swire a b) ∨ el o = .signal (.wire a b) → S.Conn a b

section
variable {S : Sys E P (Key O K)} {el : E → FElem P O K R F} {A : Rule P O K R}

theorem Built.runs (B : Built S el A) (o : E) : Runs S A.Good o ((el o).ports A.reject A.center) where
  lists := by
    intro ssp h
    obtain ⟨ssp', h1, h2⟩ := B.handler o
    rw [h1] at h
    cases h
    exact h2
  own := B.own o
  keeps := keeps_ports (B.fits o)

theorem Built.within (B : Built S el A) : Within S A.Good where
  init := by
    intro o _ reqs h r hr
    obtain ⟨reqs', h1, h2⟩ := B.initial o
    rw [h1] at h
    cases h
    exact keeps_initial (B.fits o) r ((h2 r).1 hr)
  bond := fun p q k hk hc hq => good_move (B.bonds p q hc hq) hk
  calls := by
    intro o ssp h v U F hs hg
    exact ((B.runs o).lists ssp h).good (B.runs o).owns (B.runs o).keeps hs hg

theorem Built.handled (B : Built S el A) : ∀ p, S.Port p → ∃ e, S.Own e p ∧ (S.handler e).isSome := by
  intro p hp
  obtain ⟨e, he⟩ := Option.isSome_iff_exists.1 hp
  obtain ⟨ssp, h1, _⟩ := B.handler e
  exact ⟨e, Or.inl he, by rw [h1]; rfl⟩

theorem Built.even (B : Built S el A) (hA : A.Odd) (hpl : ∀ o, Plain (el o)) : Even S A.Good Key.conj where
  invol := Key.conj_conj
  init := by
    intro o _ reqs h r hr
    obtain ⟨reqs', h1, h2⟩ := B.initial o
    rw [h1] at h
    cases h
    exact (h2 _).2 (even_initial r ((h2 r).1 hr))
  calls := by
    intro o ssp h v U F hs hg hU hF reqs hr r hm
    obtain ⟨reqs', h1, h2⟩ := ((B.runs o).lists ssp h).requests (B.runs o).owns (B.runs o).keeps hs hg
    rw [hr] at h1
    cases h1
    obtain ⟨b, hb, hy⟩ := (h2 r).1 hm
    exact (h2 _).2 ⟨b, hb, yields_even hg (B.runs o).owns hb (even_ports hA (hpl o) b hb) hU hF hy⟩

variable {ch : Nat → Nat} {n : Nat} {st : St E P (Key O K)}

theorem Built.served (B : Built S el A) (hr : run S ch n = .ok (some st)) (o : E) :
    Served S.Port ((el o).ports A.reject A.center) (fun p k => Has st.port_cplgs p k) := by
  obtain ⟨ssp, h1, _⟩ := B.handler o
  exact (B.runs o).served B.wf (by rw [h1]; rfl) (B.within.final B.wf B.handled hr).1

theorem Built.first (B : Built S el A) (hr : run S ch n = .ok (some st)) {o : E} (ho : o ∈ S.elements) :
    ∀ r ∈ (el o).initial, S.Port r.1 → Has st.port_cplgs r.1 r.2 := by
  intro r hm hp
  obtain ⟨reqs, h1, h2⟩ := B.initial o
  exact (B.within.final B.wf B.handled hr).1.init o ho reqs h1 r.1 r.2 ((h2 r).2 hm) r.1 (.refl _) hp

/-! ## C93: the keys suffice -/

/-- **C93**: in whatever order the worklist is run, when it ends every node that a coupling of an optical element drives is a node
of the system. -/
theorem C93_optical (B : Built S el A) (hr : run S ch n = .ok (some st)) {o : E} (ho : o ∈ S.elements) {e : OElem P O K F}
    (he : el o = .optical e) {env : OEnv P O K F} (hs : Shows A (fun p k => Has st.port_cplgs p k) env)
    {cs : List (Coupling P (Key O K) F)} (hc : e.setup env = .ok cs) :
    ∀ c ∈ cs, S.Port c.target.1 → Has st.port_cplgs c.target.1 c.target.2 := by
  intro c hm hp
  have hsv := B.served hr o
  have hfit := B.fits o
  have hin := B.first hr ho
  have hwi := B.wires o
  rw [he] at hsv hfit hin hwi
  refine optical_targets hfit hsv hs hin ?_ hc hm hp
  intro a b hab k hk hb
  refine (B.within.final B.wf B.handled hr).2.2.1 a b k hk (hwi a b ?_) hb
  rcases hab with rfl | rfl
  · exact Or.inl rfl
  · exact Or.inr (Or.inl rfl)

/-- **C93**: the same for signal elements. -/
theorem C93_signal (B : Built S el A) (hr : run S ch n = .ok (some st)) {o : E} (ho : o ∈ S.elements)
    {e : Signal.SElem P K R F} (he : el o = .signal e) {env : Signal.SEnv P K R F}
    (hs : ShowsS A (fun p k => Has st.port_cplgs p k) env) {cs : List (Coupling P K F)} (hc : e.setup env = .ok cs) :
    ∀ c ∈ cs, S.Port c.target.1 → Has st.port_cplgs c.target.1 (.sig c.target.2) := by
  intro c hm hp
  have hsv := B.served hr o
  have hfit := B.fits o
  have hin := B.first hr ho
  have hwi := B.wires o
  rw [he] at hsv hfit hin hwi
  refine signal_targets hfit hsv hs hin ?_ hc hm hp
  rintro a b rfl k hk hb
  exact (B.within.final B.wf B.handled hr).2.2.1 a b k hk (hwi a b (Or.inr (Or.inr rfl))) hb

/-- **C93**: an element that copies keys from the port `a` to the port `b` finds at `b` all keys of `a`. -/
theorem C93_linear (B : Built S el A) (hr : run S ch n = .ok (some st)) {o : E} {l : List (P × P)} (he : el o = .linear l)
    {a b : P} (hab : (a, b) ∈ l) {k : Key O K} (hk : Has st.port_cplgs a k) (hb : S.Port b) : Has st.port_cplgs b k := by
  have hsv := B.served hr o
  rw [he] at hsv
  exact hsv.copy (List.mem_map.2 ⟨(a, b), hab, rfl⟩) hk hb

/-- **C93**: the couplings of the optical elements are inserted without an exception: neither the `RuntimeError` of
matrix_algorithm.py l.215 nor the assertion of l.236 is raised. -/
theorem C93_inserts (B : Built S el A) (hr : run S ch n = .ok (some st)) {es : List (OElem P O K F)}
    (hes : ∀ e ∈ es, ∃ o ∈ S.elements, el o = .optical e) {env : OEnv P O K F}
    (hs : Shows A (fun p k => Has st.port_cplgs p k) env) {cs : List (Coupling P (Key O K) F)}
    (hc : blocks (es.map (OElem.setup env)) = .ok cs) {ports : Dict P (List (Key O K))}
    (hports : ∀ p l, Dict.get? ports p = some l → S.Port p ∧ ∀ k, Has st.port_cplgs p k → k ∈ l) :
    ∃ m, insert_all ports (cs.map Coupling.inj) = .ok m := by
  refine insert_ok ports cs ?_
  intro c hm l hl
  obtain ⟨e, he, d, hd, hcd⟩ := mem_blocks_map hc hm
  obtain ⟨o, ho, heq⟩ := hes e he
  obtain ⟨h1, h2⟩ := hports _ _ hl
  exact h2 _ (C93_optical B hr ho heq hs hd c hcd h1)

/-- The ports at which an element feeds a signal from the beats of the light, with the input at which the light arrives. -/
def detections : OElem P O K F → List (P × P)
  | .mirror m => [(m.FrA.i, m.ZF), (m.BkA.i, m.ZF), (m.FrB.i, m.ZF), (m.BkB.i, m.ZF)]
  | .pd p _ w => [(p.i, w)]
  | .magicPD p _ w => [(p.i, w)]
  | .pm p q _ b => [(p.i, b), (q.i, b)]
  | .am p q _ b => [(p.i, b), (q.i, b)]
  | _ => []

/-- The ports at which a signal makes sidebands: input, output and signal. -/
def modulations : OElem P O K F → List (P × P × P)
  | .mirror m => [(m.FrA.i, m.FrB.o, m.Zd), (m.BkA.i, m.BkB.o, m.Zd), (m.FrB.i, m.FrA.o, m.Zd), (m.BkB.i, m.BkA.o, m.Zd)]
  | .pm p q d _ => [(p.i, q.o, d), (q.i, p.o, d)]
  | .am p q d _ => [(p.i, q.o, d), (q.i, p.o, d)]
  | .ampm p q a b => [(p.i, q.o, a), (q.i, p.o, a), (p.i, q.o, b), (q.i, p.o, b)]
  | _ => []

/-- **C93**: every beat of two fields at a detector whose frequency is within the order limits is found: its key is one of the
keys of the signal port. -/
theorem C93_beats (B : Built S el A) (hr : run S ch n = .ok (some st)) {o : E} {e : OElem P O K F} (he : el o = .optical e)
    {a w : P} (haw : (a, w) ∈ detections e) {k l : OKey O K} (hk : Has st.port_cplgs a (.opt k))
    (hl : Has st.port_cplgs a (.opt l)) (hkl : l.opt = k.opt ∧ l.pol = k.pol) (hq : k.q = .lower ∧ l.q = .raise)
    (hrej : A.reject (k.cls - l.cls) = false) (hw : S.Port w) : Has st.port_cplgs w (.sig (k.cls - l.cls)) := by
  have hsv := B.served hr o
  rw [he] at hsv
  have hb : beat k l = k.cls - l.cls := by
    unfold beat
    rw [hq.1]
  have hp : l.opt = k.opt ∧ l.pol = k.pol ∧ l.q = k.q.conj := ⟨hkl.1, hkl.2, by rw [hq.1, hq.2]; rfl⟩
  have key : fill_beat A.reject a w ∈ (FElem.ports A.reject A.center (.optical e : FElem P O K R F)) →
      Has st.port_cplgs w (.sig (k.cls - l.cls)) := by
    intro hmem
    have := hsv.beats hmem hk hl hp (by rw [hb]; exact hrej) hw
    rw [hb] at this
    exact this
  cases e with
  | mirror m =>
    refine key (List.mem_append_right _ ?_)
    simp only [detections, List.mem_cons, List.not_mem_nil, or_false, Prod.mk.injEq] at haw
    rcases haw with ⟨rfl, rfl⟩ | ⟨rfl, rfl⟩ | ⟨rfl, rfl⟩ | ⟨rfl, rfl⟩
    · exact mem_fill_beat (x := (m.FrA.i, [m.FrB.o])) (by simp)
    · exact mem_fill_beat (x := (m.BkA.i, [m.BkB.o])) (by simp)
    · exact mem_fill_beat (x := (m.FrB.i, [m.FrA.o])) (by simp)
    · exact mem_fill_beat (x := (m.BkB.i, [m.BkA.o])) (by simp)
  | pd p b w' =>
    simp only [detections, List.mem_cons, List.not_mem_nil, or_false, Prod.mk.injEq] at haw
    obtain ⟨rfl, rfl⟩ := haw
    have hmem : fill_beat A.reject p.i w ∈ (pd_ports A.reject p b w : List (Block P (Key O K))) :=
      mem_fill_beat (ins := [(p.i, [])]) (outs := []) (x := (p.i, [])) (by simp)
    exact key hmem
  | magicPD p q w' =>
    simp only [detections, List.mem_cons, List.not_mem_nil, or_false, Prod.mk.injEq] at haw
    obtain ⟨rfl, rfl⟩ := haw
    exact key (List.mem_append_left _ (mem_fill_beat (x := (p.i, [q.o])) (by simp)))
  | pm p q d b =>
    refine key (List.mem_append_right _ ?_)
    simp only [detections, List.mem_cons, List.not_mem_nil, or_false, Prod.mk.injEq] at haw
    rcases haw with ⟨rfl, rfl⟩ | ⟨rfl, rfl⟩
    · exact mem_fill_beat (x := (p.i, [q.o])) (by simp)
    · exact mem_fill_beat (x := (q.i, [p.o])) (by simp)
  | am p q d b =>
    refine key (List.mem_append_right _ ?_)
    simp only [detections, List.mem_cons, List.not_mem_nil, or_false, Prod.mk.injEq] at haw
    rcases haw with ⟨rfl, rfl⟩ | ⟨rfl, rfl⟩
    · exact mem_fill_beat (x := (p.i, [q.o])) (by simp)
    · exact mem_fill_beat (x := (q.i, [p.o])) (by simp)
  | _ => simp [detections] at haw

/-- **C93**: every sideband within the order limits that a signal makes of the light at a modulator or at a moving mirror is found. -/
theorem C93_sidebands (B : Built S el A) (hr : run S ch n = .ok (some st)) {o : E} {e : OElem P O K F} (he : el o = .optical e)
    {a b d : P} (habd : (a, b, d) ∈ modulations e) {k : OKey O K} {l : K} (hk : Has st.port_cplgs a (.opt k))
    (hl : Has st.port_cplgs d (.sig l)) (hb : S.Port b) :
    (k.q = .lower → A.reject (k.cls + l) = false → Has st.port_cplgs b (.opt (k.at (k.cls + l)))) ∧
    (k.q = .raise → A.reject (k.cls - l) = false → Has st.port_cplgs b (.opt (k.at (k.cls - l)))) := by
  have hsv := B.served hr o
  rw [he] at hsv
  have hg := (B.within.final B.wf B.handled hr).2.1
  have hne : a ≠ d := light_ne (A := A) (hg _ _ hk).1 (hg _ _ hl).1
  have key : ∀ ptos, b ∈ ptos → fill_in A.reject a ptos d ∈ (FElem.ports A.reject A.center (.optical e : FElem P O K R F)) →
      A.reject (up k l) = false → Has st.port_cplgs b (.opt (k.at (up k l))) :=
    fun ptos hp hmem hrej => hsv.sideband hmem hp hne hk hl hrej hb
  have main : A.reject (up k l) = false → Has st.port_cplgs b (.opt (k.at (up k l))) := by
    cases e with
    | mirror m =>
      simp only [modulations, List.mem_cons, List.not_mem_nil, or_false, Prod.mk.injEq] at habd
      rcases habd with ⟨rfl, rfl, rfl⟩ | ⟨rfl, rfl, rfl⟩ | ⟨rfl, rfl, rfl⟩ | ⟨rfl, rfl, rfl⟩
      · exact key _ (by simp) (List.mem_append_right _ (mem_fill_in (x := (m.FrA.i, [m.FrB.o])) (by simp)))
      · exact key _ (by simp) (List.mem_append_right _ (mem_fill_in (x := (m.BkA.i, [m.BkB.o])) (by simp)))
      · exact key _ (by simp) (List.mem_append_right _ (mem_fill_in (x := (m.FrB.i, [m.FrA.o])) (by simp)))
      · exact key _ (by simp) (List.mem_append_right _ (mem_fill_in (x := (m.BkB.i, [m.BkA.o])) (by simp)))
    | pm p q d' b' =>
      simp only [modulations, List.mem_cons, List.not_mem_nil, or_false, Prod.mk.injEq] at habd
      rcases habd with ⟨rfl, rfl, rfl⟩ | ⟨rfl, rfl, rfl⟩
      · exact key _ (by simp) (List.mem_append_right _ (mem_fill_in (x := (p.i, [q.o])) (by simp)))
      · exact key _ (by simp) (List.mem_append_right _ (mem_fill_in (x := (q.i, [p.o])) (by simp)))
    | am p q d' b' =>
      simp only [modulations, List.mem_cons, List.not_mem_nil, or_false, Prod.mk.injEq] at habd
      rcases habd with ⟨rfl, rfl, rfl⟩ | ⟨rfl, rfl, rfl⟩
      · exact key _ (by simp) (List.mem_append_right _ (mem_fill_in (x := (p.i, [q.o])) (by simp)))
      · exact key _ (by simp) (List.mem_append_right _ (mem_fill_in (x := (q.i, [p.o])) (by simp)))
    | ampm p q da dp =>
      simp only [modulations, List.mem_cons, List.not_mem_nil, or_false, Prod.mk.injEq] at habd
      rcases habd with ⟨rfl, rfl, rfl⟩ | ⟨rfl, rfl, rfl⟩ | ⟨rfl, rfl, rfl⟩ | ⟨rfl, rfl, rfl⟩
      · exact key _ (by simp) (List.mem_append_left _ (List.mem_append_right _ (mem_fill_in (x := (p.i, [q.o])) (by simp))))
      · exact key _ (by simp) (List.mem_append_left _ (List.mem_append_right _ (mem_fill_in (x := (q.i, [p.o])) (by simp))))
      · exact key _ (by simp) (List.mem_append_right _ (mem_fill_in (x := (p.i, [q.o])) (by simp)))
      · exact key _ (by simp) (List.mem_append_right _ (mem_fill_in (x := (q.i, [p.o])) (by simp)))
    | _ => simp [modulations] at habd
  constructor
  · intro hq hrej
    have e : up k l = k.cls + l := by unfold up; rw [hq]
    rw [← e] at hrej ⊢
    exact main hrej
  · intro hq hrej
    have e : up k l = k.cls - l := by unfold up; rw [hq]
    rw [← e] at hrej ⊢
    exact main hrej

/-- **C93**: optical ports hold keys of light, other ports hold frequency keys; a port that nothing drives holds none. -/
theorem C93_kinds (B : Built S el A) (hr : run S ch n = .ok (some st)) {p : P} {k : Key O K} (hk : Has st.port_cplgs p k) :
    A.kind p = some (match k with | .opt _ => true | .sig _ => false) := by
  have := (B.within.final B.wf B.handled hr).2.1 p k hk
  cases k with
  | opt k => exact this.1
  | sig k => exact this.1

/-! ## C94: the keys come in conjugate pairs -/

/-- **C94** (partial: not with a `Harmonic2Generator`, `C94_harmonic_refuted`): when the worklist ends, a key is found at a port if
and only if its conjugate is: `LOWER` and `RAISE` fields of the same frequency, and signals of opposite frequencies. -/
theorem C94_conjugate_partial (B : Built S el A) (hA : A.Odd) (hpl : ∀ o, Plain (el o)) (hr : run S ch n = .ok (some st)) (p : P)
    (k : Key O K) : Has st.port_cplgs p k.conj ↔ Has st.port_cplgs p k :=
  B.within.even B.wf (B.even hA hpl) hr p k

/-- **C94**: so what an element is shown has the symmetry that its couplings ask for: the sets of signal keys are balanced, the sets
of optical keys closed under conjugation, and `system_setup_coupling` of every optical element raises no exception. -/
theorem C94_shown_partial (B : Built S el A) (hA : A.Odd) (hpl : ∀ o, Plain (el o)) (hr : run S ch n = .ok (some st))
    {env : OEnv P O K F} (ho : ∀ p k, k ∈ env.okeys p ↔ Has st.port_cplgs p (.opt k))
    (hs : ∀ p k, k ∈ env.skeys p ↔ Has st.port_cplgs p (.sig k)) (hnd : ∀ p, (env.skeys p).Nodup) :
    (∀ p, Signal.Balanced (env.skeys p)) ∧ (∀ p k, k ∈ env.okeys p → k.conj ∈ env.okeys p) ∧
    ∀ o e, el o = .optical e → ∃ cs, e.setup env = .ok cs := by
  have hneg : ∀ p k, k ∈ env.skeys p → -k ∈ env.skeys p := by
    intro p k hk
    rw [hs] at hk ⊢
    exact (C94_conjugate_partial B hA hpl hr p (.sig k)).2 hk
  refine ⟨fun p => ⟨hnd p, hneg p⟩, ?_, ?_⟩
  · intro p k hk
    rw [ho] at hk ⊢
    exact (C94_conjugate_partial B hA hpl hr p (.opt k)).2 hk
  · intro o e he
    have hfit := B.fits o
    rw [he] at hfit
    refine optical_ok (A := A) hfit ?_ hneg
    intro p k hk
    rw [ho] at hk
    exact ((B.within.final B.wf B.handled hr).2.1 p _ hk).2

/-- **C94** (partial as above): all optical elements of the system set up their couplings and the couplings are inserted, without an
exception, when the ports show the keys that the worklist left there. -/
theorem C94_setup_partial (B : Built S el A) (hA : A.Odd) (hpl : ∀ o, Plain (el o)) (hr : run S ch n = .ok (some st))
    {env : OEnv P O K F} (ho : ∀ p k, k ∈ env.okeys p ↔ Has st.port_cplgs p (.opt k))
    (hs : ∀ p k, k ∈ env.skeys p ↔ Has st.port_cplgs p (.sig k)) (hnd : ∀ p, (env.skeys p).Nodup) (hrej : env.reject = A.reject)
    {es : List (OElem P O K F)} (hes : ∀ e ∈ es, ∃ o ∈ S.elements, el o = .optical e) {ports : Dict P (List (Key O K))}
    (hports : ∀ p l, Dict.get? ports p = some l → S.Port p ∧ ∀ k, Has st.port_cplgs p k → k ∈ l) :
    ∃ cs m, blocks (es.map (OElem.setup env)) = .ok cs ∧ insert_all ports (cs.map Coupling.inj) = .ok m := by
  have hok := (C94_shown_partial B hA hpl hr ho hs hnd).2.2
  obtain ⟨cs, hc⟩ : ∃ cs, blocks (es.map (OElem.setup env)) = .ok cs := by
    refine blocks_ok (fun b hb => ?_)
    rw [List.mem_map] at hb
    obtain ⟨e, he, rfl⟩ := hb
    obtain ⟨o, _, heq⟩ := hes e he
    exact hok o e heq
  obtain ⟨m, hm⟩ := C93_inserts B hr hes ⟨fun p k h => (ho p k).1 h, fun p k h => (hs p k).1 h, hrej⟩ hc hports
  exact ⟨cs, m, hc, hm⟩

/-! ## C95: the order limits -/

/-- **C95**: the worklist raises no exception, in whatever order it is run and however long. -/
theorem C95_no_error (B : Built S el A) (ch : Nat → Nat) (n : Nat) : ∃ r, run S ch n = .ok r := B.within.no_error B.wf ch n

/-- **C95**: every key at a port is within the order limits and has a carrier and frequencies of the system. -/
theorem C95_orders (B : Built S el A) (hr : run S ch n = .ok (some st)) {p : P} :
    (∀ k : OKey O K, Has st.port_cplgs p (.opt k) → A.opts k.opt k.pol ∧ k.cls ∈ A.G ∧ A.reject k.cls = false) ∧
    ∀ f : K, Has st.port_cplgs p (.sig f) → f ∈ A.G ∧ A.reject f = false :=
  ⟨fun k hk => ((B.within.final B.wf B.handled hr).2.1 p _ hk).2, fun f hf => ((B.within.final B.wf B.handled hr).2.1 p _ hf).2⟩

/-- **C95**: the worklist ends, in whatever order it is run, if the order limits leave finitely many frequencies. -/
theorem C95_terminates (B : Built S el A) (ch : Nat → Nat) (hp : {p | A.kind p ≠ none}.Finite) (ho : {x : O × Pol | A.opts x.1 x.2}.Finite)
    (hf : {f | f ∈ A.G ∧ A.reject f = false}.Finite) : ∃ n st, run S ch n = .ok (some st) := by
  refine B.within.terminates B.wf ch ?_
  have hq : ({Quantum.lower, Quantum.raise} : Set Quantum).Finite := Set.toFinite _
  have h1 : (Set.image (fun x : P × ((O × Pol) × (K × Quantum)) =>
      (x.1, (Key.opt ⟨x.2.1.1, x.2.2.1, x.2.1.2, x.2.2.2⟩ : Key O K)))
      ({p | A.kind p ≠ none} ×ˢ ({x : O × Pol | A.opts x.1 x.2} ×ˢ ({f | f ∈ A.G ∧ A.reject f = false} ×ˢ
        ({Quantum.lower, Quantum.raise} : Set Quantum))))).Finite :=
    (hp.prod (ho.prod (hf.prod hq))).image _
  have h2 : (Set.image (fun x : P × K => (x.1, (Key.sig x.2 : Key O K)))
      ({p | A.kind p ≠ none} ×ˢ {f | f ∈ A.G ∧ A.reject f = false})).Finite := (hp.prod hf).image _
  refine (h1.union h2).subset ?_
  rintro ⟨p, k⟩ hk
  cases k with
  | opt k =>
    refine Or.inl ⟨(p, (k.opt, k.pol), k.cls, k.q), ⟨?_, hk.2.1, hk.2.2, ?_⟩, rfl⟩
    · show A.kind p ≠ none
      rw [show A.kind p = some true from hk.1]
      simp
    · show k.q = Quantum.lower ∨ k.q = Quantum.raise
      cases k.q <;> simp
  | sig f =>
    refine Or.inr ⟨(p, f), ⟨?_, hk.2⟩, rfl⟩
    show A.kind p ≠ none
    rw [show A.kind p = some false from hk.1]
    simp

/-! ## C96: the keys do not depend on the order -/

/-- **C96** (partial: neither with a `Harmonic2Generator`, `C96_harmonic_refuted`, nor with modulators or mirrors when there are two
polarizations or carriers, `C96_drive_refuted`): when the worklist ends, a port has exactly the keys that it needs. -/
theorem C96_exact_partial (B : Built S el A) (hset : ∀ o, Settled A (el o))
    (hms : ∀ o a b, el o = .signal (.meanSquare a b) →
      ∃ k, Needed S (fun o => (el o).initial) (fun o => (el o).ports A.reject A.center) a k)
    (hr : run S ch n = .ok (some st)) (p : P) (k : Key O K) :
    Has st.port_cplgs p k ↔ Needed S (fun o => (el o).initial) (fun o => (el o).ports A.reject A.center) p k := by
  have hx : ∀ e, ∀ b ∈ (el e).ports A.reject A.center, b.Exact A.Good := fun e => exact_ports (B.fits e) (hset e)
  have hh : ∀ e, (S.handler e).isSome := fun e => by obtain ⟨ssp, h, _⟩ := B.handler e; rw [h]; rfl
  have hfin := B.within.final B.wf B.handled hr
  constructor
  · intro hk
    refine ((needed_within B.wf B.within B.runs (fun o _ => B.initial o) hx ?_).final B.wf B.handled hr).2.1 p k hk |>.2 p (.refl _) ?_
    · intro e rs hm
      obtain ⟨a, b, he⟩ := always_mem hm
      obtain ⟨k, hk⟩ := hms e a b he
      refine ⟨.each a (fun k => match k with
        | .sig k => if A.reject (-k) then ∅ else {(a, .sig (-k))}
        | _ => ∅), ?_, a, by simp [Block.reads], k, hk⟩
      rw [he]
      exact List.mem_cons_self
    · refine (hfin.2.2.2.cplgs p).1 ?_
      unfold Has at hk
      cases h : st.port_cplgs.get? p with
      | none => rw [h] at hk; simp at hk
      | some _ => rfl
  · exact needed_found B.wf B.within B.runs hh (fun o _ => B.initial o) hx hfin.1

/-- **C96** (partial as above): so two runs of the worklist, in whatever orders, find the same keys. -/
theorem C96_order_partial (B : Built S el A) (hset : ∀ o, Settled A (el o))
    (hms : ∀ o a b, el o = .signal (.meanSquare a b) →
      ∃ k, Needed S (fun o => (el o).initial) (fun o => (el o).ports A.reject A.center) a k)
    (hr : run S ch n = .ok (some st)) {ch' : Nat → Nat} {n' : Nat} {st' : St E P (Key O K)} (hr' : run S ch' n' = .ok (some st'))
    (p : P) (k : Key O K) : Has st.port_cplgs p k ↔ Has st'.port_cplgs p k := by
  rw [C96_exact_partial B hset hms hr, C96_exact_partial B hset hms hr']

end

/-- **C95**: it ends for the order limits of the program (system.py l.227-245, C60): frequency keys with integer coefficients on
finitely many frequencies, rejected if a coefficient exceeds its limit. -/
theorem C95_limits {Fr : Type} [Fintype Fr] [DecidableEq Fr] {S : Sys E P (Key O (Fr → ℤ))} {el : E → FElem P O (Fr → ℤ) R F}
    {A : Rule P O (Fr → ℤ) R} (limit : Fr → ℤ) (hA : ∀ k, A.reject k = decide (∃ f, limit f < |k f|)) (B : Built S el A)
    (ch : Nat → Nat) (hp : {p | A.kind p ≠ none}.Finite) (ho : {x : O × Pol | A.opts x.1 x.2}.Finite) :
    ∃ n st, run S ch n = .ok (some st) := by
  refine C95_terminates B ch hp ho ?_
  refine (Set.finite_Icc (fun f => -limit f) (fun f => limit f)).subset ?_
  rintro k ⟨_, hk⟩
  rw [hA, decide_eq_false_iff_not] at hk
  push Not at hk
  rw [Set.mem_Icc]
  exact ⟨fun f => (abs_le.1 (hk f)).1, fun f => (abs_le.1 (hk f)).2⟩

end Fill
