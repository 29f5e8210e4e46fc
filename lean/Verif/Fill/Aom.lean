import Verif.Fill.Demo
import Verif.Optics.AomBasic

/-!
# The keys that the basic acousto-optic modulator asks for (C142)

Source: `/repo/phasor/optics/AOMBasic.py` l.46-144 and, for the mixer on its drive, `/repo/phasor/signals/RMS.py` l.20-27.
-/

set_option linter.unusedSectionVars false

namespace Fill
open Py Ports Optics Circuit Inject

variable {E P O K R F : Type} [DecidableEq E] [DecidableEq P] [DecidableEq O] [DecidableEq K] [AddCommGroup K]
  [Ring R] [LinearOrder R] [IsStrictOrderedRing R] [Field F] [StarRing F] [DecidableEq F]

/-! ## model -/

section Model
variable (reject : K → Bool) (center : K → R)

/-- The bodies l.63-89 and l.98-117 (they are the same): the light `k` with the component `l` of the drive. -/
def aom_side (direction : R) (pto : P) (k l : Key O K) : Finset (P × Key O K) :=
  match k, l with
  | .opt k, .sig l =>
    if reject (aom_ckeyO k.q k.cls l) then ∅ else
      if aom_neg k.q * center l * direction ≤ 0 then ∅ else {(pto, .opt (k.at (aom_ckeyO k.q k.cls l)))}
  | _, _ => ∅

/-- `drv_ckey`, l.129-134. -/
def aom_drv_ckey (q : Quantum) (ckey ckey2 : K) : K :=
  match q with
  | .lower => ckey2 - ckey
  | .raise => ckey2 + ckey

/-- The body l.119-144: the light `k` at the port and the light `k2` at the port where it goes. -/
def aom_drive (direction : R) (Drv : P) (k k2 : Key O K) : Finset (P × Key O K) :=
  match k, k2 with
  | .opt k, .opt k2 =>
    if k2.pol = k.pol ∧ k2.opt = k.opt ∧ k2.q = k.q then
      if reject (aom_drv_ckey k.q k.cls k2.cls) then ∅ else
        if aom_neg k.q * center (aom_drv_ckey k.q k.cls k2.cls) * direction ≤ 0 then ∅
        else {(Drv, .sig (aom_drv_ckey k.q k.cls k2.cls))}
    else ∅
  | _, _ => ∅

/-- One turn of the loop l.54-144. -/
def aom_turn (Drv port pto : P) (direction : R) : List (Block P (Key O K)) :=
  [.prod Drv port (fun l k => aom_side reject center direction pto k l),
    .prod port Drv (fun k l => aom_side reject center direction pto k l),
    .prod port pto (fun k k2 => aom_drive reject center direction Drv k k2)]

/-- `AOMBasic.system_setup_ports`, l.46-144. -/
def aom_ports (e : AomBasic P) : List (Block P (Key O K)) :=
  aom_turn reject center e.Drv e.po_Fr.i e.po_Bk.o 1 ++
  aom_turn reject center e.Drv e.po_Bk.i e.po_Fr.o (-1) ++
  aom_turn reject center e.Drv e.po_Fr.o e.po_Bk.i 1 ++
  aom_turn reject center e.Drv e.po_Bk.o e.po_Fr.i (-1)

/-- The elements with the modulator among them. -/
inductive AElem (P O K R F : Type)
  | other (e : FElem P O K R F)
  | aom (e : AomBasic P)

/-- The method `system_setup_ports`. -/
def AElem.ports : AElem P O K R F → List (Block P (Key O K))
  | .other e => e.ports reject center
  | .aom e => aom_ports reject center e

/-- The method `system_setup_ports_initial`; `AOMBasic` has none. -/
def AElem.initial : AElem P O K R F → List (P × Key O K)
  | .other e => e.initial
  | .aom _ => []

end Model

/-- An element fits the system. -/
def Rule.FitsA (A : Rule P O K R) : AElem P O K R F → Prop
  | .other e => A.Fits e
  | .aom e => A.Light e.po_Fr ∧ A.Light e.po_Bk ∧ A.Sig e.Drv

/-- The system `S` is built of the elements `el`.  Other elements may own the ports that they read virtually, as the mixer
of the modulator (RMS.py l.25) does. -/
structure BuiltA (S : Sys E P (Key O K)) (el : E → AElem P O K R F) (A : Rule P O K R) : Prop where
  wf : S.WF
  handler : ∀ o, ∃ ssp, S.handler o = some ssp ∧ Lists ssp ((el o).ports A.reject A.center)
  initial : ∀ o, ∃ reqs, S.initial o = some reqs ∧ ∀ r, r ∈ reqs ↔ r ∈ (el o).initial
  own : ∀ o, ∀ b ∈ (el o).ports A.reject A.center, ∀ p ∈ b.reads, S.Own o p
  aom : ∀ o e, el o = .aom e → ∀ p ∈ [e.po_Fr.i, e.po_Fr.o, e.po_Bk.i, e.po_Bk.o, e.Drv], S.port_owners.get? p = some o
  fits : ∀ o, A.FitsA (el o)
  bonds : ∀ p q, S.Conn p q → S.Port q → A.kind p = A.kind q

/-! ## the rules of the modulator -/

section Rules
variable {A : Rule P O K R}

theorem ckeyO_mem {q : Quantum} {k l : K} (hk : k ∈ A.G) (hl : l ∈ A.G) : aom_ckeyO q k l ∈ A.G := by
  cases q
  · exact A.G.add_mem hk hl
  · exact A.G.sub_mem hk hl

theorem drv_ckey_mem {q : Quantum} {k l : K} (hk : k ∈ A.G) (hl : l ∈ A.G) : aom_drv_ckey q k l ∈ A.G := by
  cases q
  · exact A.G.sub_mem hl hk
  · exact A.G.add_mem hl hk

theorem mem_side {reject : K → Bool} {center : K → R} {direction : R} {pto : P} {k : OKey O K} {l : K} {r : P × Key O K} :
    r ∈ aom_side reject center direction pto (.opt k) (.sig l) ↔ reject (aom_ckeyO k.q k.cls l) = false ∧
      0 < aom_neg k.q * center l * direction ∧ r = (pto, .opt (k.at (aom_ckeyO k.q k.cls l))) := by
  unfold aom_side
  dsimp only
  split_ifs with h1 h2
  · simp [h1]
  · simp [not_lt.2 h2]
  · rw [Finset.mem_singleton]
    exact ⟨fun h => ⟨by simpa using h1, not_le.1 h2, h⟩, fun h => h.2.2⟩

theorem mem_drive {reject : K → Bool} {center : K → R} {direction : R} {Drv : P} {k k2 : OKey O K} {r : P × Key O K} :
    r ∈ aom_drive reject center direction Drv (.opt k) (.opt k2) ↔ k2 = k.at k2.cls ∧
      reject (aom_drv_ckey k.q k.cls k2.cls) = false ∧ 0 < aom_neg k.q * center (aom_drv_ckey k.q k.cls k2.cls) * direction ∧
      r = (Drv, .sig (aom_drv_ckey k.q k.cls k2.cls)) := by
  obtain ⟨o, f, p, q⟩ := k
  obtain ⟨o2, f2, p2, q2⟩ := k2
  unfold aom_drive
  dsimp only [OKey.at]
  split_ifs with h0 h1 h2
  · simp [h1]
  · simp [not_lt.2 h2]
  · obtain ⟨rfl, rfl, rfl⟩ := h0
    rw [Finset.mem_singleton]
    exact ⟨fun h => ⟨rfl, by simpa using h1, not_le.1 h2, h⟩, fun h => h.2.2.2⟩
  · constructor
    · intro h
      simp at h
    · rintro ⟨h, _⟩
      injection h with h1 h2 h3 h4
      exact absurd ⟨h3, h1, h4⟩ h0

theorem keeps_turn {Drv port pto : P} {direction : R} (hd : A.Sig Drv) (hq : A.kind pto = some true) :
    ∀ b ∈ (aom_turn A.reject A.center Drv port pto direction : List (Block P (Key O K))), b.Keeps A.Good := by
  have side : ∀ k l, A.Good port k → A.Good Drv l → ∀ r ∈ aom_side A.reject A.center direction pto k l, A.Good r.1 r.2 := by
    intro k l hk hl r hr
    match k, l with
    | .opt k, .sig l =>
      obtain ⟨h1, _, rfl⟩ := mem_side.1 hr
      exact ⟨hq, hk.2.1, ckeyO_mem hk.2.2.1 hl.2.1, h1⟩
    | .opt _, .opt _ => simp [aom_side] at hr
    | .sig _, _ => simp [aom_side] at hr
  intro b hb
  simp only [aom_turn, List.mem_cons, List.not_mem_nil, or_false] at hb
  rcases hb with rfl | rfl | rfl
  · exact fun l k hl hk => side k l hk hl
  · exact fun k l hk hl => side k l hk hl
  · intro k k2 hk hk2 r hr
    match k, k2 with
    | .opt k, .opt k2 =>
      obtain ⟨_, h1, _, rfl⟩ := mem_drive.1 hr
      exact ⟨hd, drv_ckey_mem hk.2.2.1 hk2.2.2.1, h1⟩
    | .opt _, .sig _ => simp [aom_drive] at hr
    | .sig _, _ => simp [aom_drive] at hr

theorem keeps_aom {e : AomBasic P} (h : A.Light e.po_Fr ∧ A.Light e.po_Bk ∧ A.Sig e.Drv) :
    ∀ b ∈ (aom_ports A.reject A.center e : List (Block P (Key O K))), b.Keeps A.Good := by
  obtain ⟨⟨h1, h2⟩, ⟨h3, h4⟩, h5⟩ := h
  intro b hb
  simp only [aom_ports, List.mem_append] at hb
  rcases hb with ((hb | hb) | hb) | hb
  · exact keeps_turn h5 h4 b hb
  · exact keeps_turn h5 h2 b hb
  · exact keeps_turn h5 h3 b hb
  · exact keeps_turn h5 h1 b hb

theorem turn_reads {reject : K → Bool} {center : K → R} {Drv port pto : P} {direction : R} {b : Block P (Key O K)}
    (hb : b ∈ aom_turn reject center Drv port pto direction) {p : P} (hp : p ∈ b.reads) : p = Drv ∨ p = port ∨ p = pto := by
  simp only [aom_turn, List.mem_cons, List.not_mem_nil, or_false] at hb
  rcases hb with rfl | rfl | rfl <;> simp only [Block.reads, List.mem_cons, List.not_mem_nil, or_false] at hp <;> tauto

theorem aom_reads {reject : K → Bool} {center : K → R} {e : AomBasic P} {b : Block P (Key O K)}
    (hb : b ∈ aom_ports reject center e) {p : P} (hp : p ∈ b.reads) :
    p ∈ [e.po_Fr.i, e.po_Fr.o, e.po_Bk.i, e.po_Bk.o, e.Drv] := by
  simp only [aom_ports, List.mem_append] at hb
  simp only [List.mem_cons, List.not_mem_nil, or_false]
  rcases hb with ((hb | hb) | hb) | hb <;> rcases turn_reads hb hp with rfl | rfl | rfl <;> tauto

end Rules

section
variable {S : Sys E P (Key O K)} {el : E → AElem P O K R F} {A : Rule P O K R}

theorem BuiltA.keeps (B : BuiltA S el A) (o : E) : ∀ b ∈ (el o).ports A.reject A.center, b.Keeps A.Good := by
  have h := B.fits o
  cases he : el o with
  | other e => rw [he] at h; exact keeps_ports h
  | aom e => rw [he] at h; exact keeps_aom h

theorem BuiltA.within (B : BuiltA S el A) : Within S A.Good where
  init := by
    intro o _ reqs h r hr
    obtain ⟨reqs', h1, h2⟩ := B.initial o
    rw [h1] at h
    cases h
    have hr' := (h2 r).1 hr
    have hf := B.fits o
    cases he : el o with
    | other e =>
      rw [he] at hf hr'
      exact keeps_initial hf r hr'
    | aom e =>
      rw [he] at hr'
      simp [AElem.initial] at hr'
  bond := fun p q k hk hc hq => good_move (B.bonds p q hc hq) hk
  calls := by
    intro o ssp h v U F hs hg
    obtain ⟨ssp', h1, h2⟩ := B.handler o
    rw [h1] at h
    cases h
    exact h2.good (B.own o) (B.keeps o) hs hg

theorem BuiltA.handled (B : BuiltA S el A) : ∀ p, S.Port p → ∃ e, S.Own e p ∧ (S.handler e).isSome := by
  intro p hp
  obtain ⟨e, he⟩ := Option.isSome_iff_exists.1 hp
  obtain ⟨ssp, h1, _⟩ := B.handler e
  exact ⟨e, Or.inl he, by rw [h1]; rfl⟩

theorem BuiltA.runs (B : BuiltA S el A) {o : E} {e : AomBasic P} (he : el o = .aom e) :
    Runs S A.Good o (aom_ports A.reject A.center e) where
  lists := by
    intro ssp h
    obtain ⟨ssp', h1, h2⟩ := B.handler o
    rw [h1] at h
    cases h
    rw [he] at h2
    exact h2
  own := fun b hb p hp => B.aom o e he p (aom_reads hb hp)
  keeps := by
    have h := B.keeps o
    rw [he] at h
    exact h

/-- Two nested loops, either of which runs over the new keys. -/
theorem Runs.prod_both {κ : Type} [DecidableEq κ] {S : Sys E P κ} {Good : P → κ → Prop} {o : E} {bs : List (Block P κ)} (w : S.WF)
    (h : Runs S Good o bs) {a b : P} {g g' : κ → κ → Finset (P × κ)} (hb : .prod a b g ∈ bs) (hb' : .prod b a g' ∈ bs)
    {k1 k2 : κ} {c : P × κ} (hc : c ∈ g k1 k2) (hc' : c ∈ g' k2 k1) : Must S Good o [(a, k1), (b, k2)] c := by
  refine h.must w hb (by simp [Block.reads]) (by simp) ?_
  intro U F hk hn
  have h1 := hk (a, k1) (by simp)
  have h2 := hk (b, k2) (by simp)
  obtain ⟨x, hx, hn⟩ := hn
  simp only [List.mem_cons, List.not_mem_nil, or_false] at hx
  rcases hx with rfl | rfl
  · exact ⟨_, hb, k1, hn, k2, h2, hc⟩
  · exact ⟨_, hb', k2, hn, k1, h1, hc'⟩

variable {ch : Nat → Nat} {n : Nat} {st : St E P (Key O K)}

theorem BuiltA.side (B : BuiltA S el A) (hr : run S ch n = .ok (some st)) {o : E} {e : AomBasic P} (he : el o = .aom e)
    {port pto : P} {direction : R}
    (ht : ∀ b ∈ aom_turn (O := O) A.reject A.center e.Drv port pto direction, b ∈ aom_ports A.reject A.center e)
    {k : OKey O K} {l : K} (hk : Has st.port_cplgs port (.opt k)) (hl : Has st.port_cplgs e.Drv (.sig l))
    (h1 : A.reject (aom_ckeyO k.q k.cls l) = false) (h2 : 0 < aom_neg k.q * A.center l * direction) (hp : S.Port pto) :
    Has st.port_cplgs pto (.opt (k.at (aom_ckeyO k.q k.cls l))) := by
  have hm : (pto, Key.opt (k.at (aom_ckeyO k.q k.cls l))) ∈ aom_side A.reject A.center direction pto (.opt k) (.sig l) :=
    mem_side.2 ⟨h1, h2, rfl⟩
  have hM := (B.runs he).prod_both B.wf (ht (.prod e.Drv port
    (fun l k => aom_side A.reject A.center direction pto k l)) (by simp [aom_turn])) (ht (.prod port e.Drv
    (fun k l => aom_side A.reject A.center direction pto k l)) (by simp [aom_turn])) (k1 := .sig l) (k2 := .opt k)
    (c := (pto, .opt (k.at (aom_ckeyO k.q k.cls l)))) hm hm
  obtain ⟨ssp, hs, _⟩ := B.handler o
  refine (B.within.final B.wf B.handled hr).1.rule o (by rw [hs]; rfl) _ pto _ hM ?_ pto (.refl _) hp
  intro x hx
  simp only [List.mem_cons, List.not_mem_nil, or_false] at hx
  rcases hx with rfl | rfl
  · exact hl
  · exact hk

theorem BuiltA.isPort (B : BuiltA S el A) {o : E} {e : AomBasic P} (he : el o = .aom e) {p : P}
    (hp : p ∈ [e.po_Fr.i, e.po_Fr.o, e.po_Bk.i, e.po_Bk.o, e.Drv]) : S.Port p := by
  unfold Sys.Port
  rw [B.aom o e he p hp]
  rfl

/-! ## C142 -/

/-- **C142, targets.**  In whatever order the worklist is run, when it ends every node that a coupling of the modulator drives is a
node of the system. -/
theorem C142_targets (B : BuiltA S el A) (hr : run S ch n = .ok (some st)) {o : E} {e : AomBasic P} (he : el o = .aom e)
    {env : OEnv P O K F} (hs : Shows A (fun p k => Has st.port_cplgs p k) env) :
    ∀ c ∈ e.setup env A.center, Has st.port_cplgs c.target.1 c.target.2 := by
  have way : ∀ (port pto : Port P) (direction : R), pto.o ∈ [e.po_Fr.i, e.po_Fr.o, e.po_Bk.i, e.po_Bk.o, e.Drv] →
      (∀ b ∈ aom_turn (O := O) A.reject A.center e.Drv port.i pto.o direction, b ∈ aom_ports A.reject A.center e) →
      ∀ c ∈ e.way env A.center port pto direction, Has st.port_cplgs c.target.1 c.target.2 := by
    intro port pto direction hp ht c hc
    simp only [AomBasic.way, List.mem_flatMap] at hc
    obtain ⟨k, hk, l, hl, hc⟩ := hc
    split_ifs at hc with h1 h2
    · simp at hc
    · simp at hc
    · rw [List.mem_singleton] at hc
      subst hc
      rw [hs.reject] at h1
      exact B.side hr he ht (hs.okeys _ _ hk) (hs.skeys _ _ hl) (by simpa using h1) (not_le.1 h2) (B.isPort he hp)
  intro c hc
  rcases List.mem_append.1 hc with hc | hc
  · exact way e.po_Fr e.po_Bk 1 (by simp) (fun b hb => by simp [aom_ports, hb]) c hc
  · exact way e.po_Bk e.po_Fr (-1) (by simp) (fun b hb => by simp [aom_ports, hb]) c hc

/-- **C142, sources.**  The light from which the modulator would make light at a key of an output is looked for: its key, if it is
within the order limits, is a key of the input.  (The loops l.57-58 add the drive to the key of the output where they would have to
subtract it, so this needs the negative component of the drive, for which the mixer `Drv_Pwr` asks, RMS.py l.38-43.) -/
theorem C142_sources (B : BuiltA S el A) (hodd : ∀ f, A.center (-f) = -A.center f) (hr : run S ch n = .ok (some st)) {o : E}
    {e : AomBasic P} (he : el o = .aom e) {k : OKey O K} {l : K} (hl : Has st.port_cplgs e.Drv (.sig (-l)))
    (hk : A.reject k.cls = false) :
    (0 < aom_neg k.q * A.center l → Has st.port_cplgs e.po_Bk.o (.opt (k.at (aom_ckeyO k.q k.cls l))) →
      Has st.port_cplgs e.po_Fr.i (.opt k)) ∧
    (aom_neg k.q * A.center l < 0 → Has st.port_cplgs e.po_Fr.o (.opt (k.at (aom_ckeyO k.q k.cls l))) →
      Has st.port_cplgs e.po_Bk.i (.opt k)) := by
  have back : ∀ j : OKey O K, j = k.at (aom_ckeyO k.q k.cls l) → j.at (aom_ckeyO j.q j.cls (-l)) = k ∧
      aom_ckeyO j.q j.cls (-l) = k.cls ∧ j.q = k.q := by
    rintro j rfl
    obtain ⟨o, f, p, q⟩ := k
    cases q <;> simp [OKey.at, aom_ckeyO]
  obtain ⟨b1, b2, b3⟩ := back _ rfl
  constructor
  · intro hs hh
    have := B.side hr he (port := e.po_Bk.o) (pto := e.po_Fr.i) (direction := -1) (fun b hb => by simp [aom_ports, hb]) hh hl
      (by rw [b2]; exact hk) (by rw [b3, hodd]; simpa using hs) (B.isPort he (by simp))
    rwa [b1] at this
  · intro hs hh
    have := B.side hr he (port := e.po_Fr.o) (pto := e.po_Bk.i) (direction := 1) (fun b hb => by simp [aom_ports, hb]) hh hl
      (by rw [b2]; exact hk) (by rw [b3, hodd]; simpa using hs) (B.isPort he (by simp))
    rwa [b1] at this

/-- **C142, orders.**  With modulators in the system the worklist raises no exception, in whatever order it is run and however
long, and every key at a port is within the order limits. -/
theorem C142_orders (B : BuiltA S el A) :
    (∀ ch n, ∃ r, run S ch n = .ok r) ∧ ∀ ch n st, run S ch n = .ok (some st) → ∀ p,
      (∀ k : OKey O K, Has st.port_cplgs p (.opt k) → A.opts k.opt k.pol ∧ k.cls ∈ A.G ∧ A.reject k.cls = false) ∧
      ∀ f : K, Has st.port_cplgs p (.sig f) → f ∈ A.G ∧ A.reject f = false :=
  ⟨fun ch n => B.within.no_error B.wf ch n, fun _ _ _ hr p =>
    ⟨fun k hk => ((B.within.final B.wf B.handled hr).2.1 p _ hk).2, fun f hf => ((B.within.final B.wf B.handled hr).2.1 p _ hf).2⟩⟩

/-- **C142, end.**  It ends if the order limits leave finitely many frequencies. -/
theorem C142_terminates (B : BuiltA S el A) (ch : Nat → Nat) (hp : {p | A.kind p ≠ none}.Finite)
    (ho : {x : O × Pol | A.opts x.1 x.2}.Finite) (hf : {f | f ∈ A.G ∧ A.reject f = false}.Finite) :
    ∃ n st, run S ch n = .ok (some st) := by
  refine B.within.terminates B.wf ch ?_
  have hq : ({Quantum.lower, Quantum.raise} : Set Quantum).Finite := Set.toFinite _
  have h1 : (Set.image (fun x : P × ((O × Pol) × (K × Quantum)) =>
      (x.1, (Key.opt ⟨x.2.1.1, x.2.2.1, x.2.1.2, x.2.2.2⟩ : Key O K)))
      ({p | A.kind p ≠ none} ×ˢ ({x : O × Pol | A.opts x.1 x.2} ×ˢ ({f | f ∈ A.G ∧ A.reject f = false} ×ˢ
        ({Quantum.lower, Quantum.raise} : Set Quantum))))).Finite :=
    (hp.prod (ho.prod (hf.prod hq))).image _
  have h2 : (Set.image (fun x : P × K => (x.1, (Key.sig x.2 : Key O K)))
      ({p | A.kind p ≠ none} ×ˢ {f | f ∈ A.G ∧ A.reject f = false})).Finite := (hp.prod hf).image _
  refine (h1.union h2).subset ?_
  rintro ⟨p, k⟩ hk
  cases k with
  | opt k =>
    refine Or.inl ⟨(p, (k.opt, k.pol), k.cls, k.q), ⟨?_, hk.2.1, hk.2.2, ?_⟩, rfl⟩
    · show A.kind p ≠ none
      rw [show A.kind p = some true from hk.1]
      simp
    · show k.q = Quantum.lower ∨ k.q = Quantum.raise
      cases k.q <;> simp
  | sig f =>
    refine Or.inr ⟨(p, f), ⟨?_, hk.2⟩, rfl⟩
    show A.kind p ≠ none
    rw [show A.kind p = some false from hk.1]
    simp

end

/-! ## A laser through a modulator with its generator and mixer -/

/-- The ports: laser 0/1, modulator front 2/3, back 4/5, drive 6, mean square 7, generator 8, vacuum 9/10 behind it. -/
def amEl : Fin 5 → AElem (Fin 11) Unit (Fin 5) ℤ ℚ
  | 0 => .other (.optical (.laser ⟨⟨0, 1⟩, 1, 0, .S, (), 0⟩))
  | 1 => .aom ⟨⟨2, 3⟩, ⟨4, 5⟩, 6, 7⟩
  | 2 => .other (.signal (.meanSquare 6 7))
  | 3 => .other (.signal (.generator ⟨8, 1, 1, none, 0, []⟩))
  | 4 => .other (.optical (.laser ⟨⟨9, 10⟩, 0, 0, .S, (), 0⟩))

def amOwner : Fin 11 → Fin 5 := ![0, 0, 1, 1, 1, 1, 1, 2, 3, 4, 4]

def amRule : Rule (Fin 11) Unit (Fin 5) ℤ where
  reject := reject5
  center := center5
  kind := ![some true, some true, some true, some true, some true, some true, some false, some false, some false, some true, some true]
  opts _ p := p = .S
  G := ⊤

def amFill : Sys (Fin 5) (Fin 11) (Key Unit (Fin 5)) where
  elements := [0, 1, 2, 3, 4]
  port_owners := (List.finRange 11).map (fun p => (p, amOwner p))
  port_owners_virtual := [(6, [2])]
  owners_ports := (List.finRange 5).map (fun e => (e, (List.finRange 11).filter (fun p => amOwner p = e)))
  owners_ports_virtual := [(0, []), (1, []), (2, [6]), (3, []), (4, [])]
  bond_pairs := [(1, [2]), (3, [0]), (5, [9]), (10, [4]), (8, [6])]
  initial e := some (amEl e).initial
  handler e := some (listed (enum5 11) ((amEl e).ports amRule.reject amRule.center))

theorem amFill_wf : amFill.WF := by
  constructor <;> (try unfold Sys.Own) <;> (try unfold Sys.Port) <;> decide

theorem amFill_built : BuiltA amFill amEl amRule where
  wf := amFill_wf
  handler := fun o => ⟨_, rfl, lists_listed mem_enum5 _⟩
  initial := fun o => ⟨_, rfl, fun r => Iff.rfl⟩
  own := by unfold Sys.Own; decide
  aom := by
    intro o e he
    match o with
    | 0 | 2 | 3 | 4 => cases he
    | 1 =>
      cases he
      decide
  fits := by
    intro o
    have hl : ∀ p : Port (Fin 11), amRule.kind p.i = some true → amRule.kind p.o = some true → amRule.Light p :=
      fun _ h1 h2 => ⟨h1, h2⟩
    have hf : ∀ f, reject5 f = false → amRule.Freq f := fun f hf => ⟨AddSubgroup.mem_top _, hf⟩
    match o with
    | 0 => exact ⟨hl _ rfl rfl, rfl, hf _ (by decide)⟩
    | 1 => exact ⟨hl _ rfl rfl, hl _ rfl rfl, rfl⟩
    | 2 => exact ⟨rfl, rfl, by decide⟩
    | 3 => exact ⟨rfl, hf _ (by decide), hf _ (by decide), by simp⟩
    | 4 => exact ⟨hl _ rfl rfl, rfl, hf _ (by decide)⟩
  bonds := fun p q h _ => bonds_kind (by decide) p q h

/-- The hypotheses are met together, and the result is not trivial: the light leaves the modulator at the back shifted up by the
frequency of the generator, and at its front shifted down. -/
example : BuiltA amFill amEl amRule ∧ (∀ f, amRule.center (-f) = -amRule.center f) ∧
    outcome amFill (fun _ => 0) 60 6 = some (sigs [1, 4]) ∧
    ∃ s, outcome amFill (fun _ => 0) 60 5 = some s ∧ .opt ⟨(), 1, .S, .lower⟩ ∈ s ∧ .opt ⟨(), 1, .S, .raise⟩ ∈ s := by
  refine ⟨amFill_built, fun f => (odd5 f).2, by decide +kernel, ?_⟩
  have h : ((outcome amFill (fun _ => 0) 60 5).map (fun s => decide (Key.opt ⟨(), 1, .S, .lower⟩ ∈ s ∧
      Key.opt ⟨(), 1, .S, .raise⟩ ∈ s))) = some true := by decide +kernel
  rw [Option.map_eq_some_iff] at h
  obtain ⟨s, h1, h2⟩ := h
  exact ⟨s, h1, by simpa using h2⟩

/-! ## Light of one frequency from both sides -/

/-- Frequency keys: the multiples `-4, …, 4` of one frequency. -/
def center9 (k : Fin 9) : ℤ := if k ≤ 4 then (k : ℤ) else (k : ℤ) - 9

/-- The order limit 2; sums of two keys within it do not wrap around. -/
def reject9 (k : Fin 9) : Bool := decide (2 < |center9 k|)

def keys9 : List (Key Unit (Fin 9)) :=
  (List.finRange 9).flatMap (fun f => [.sig f, .opt ⟨(), f, .S, .lower⟩, .opt ⟨(), f, .S, .raise⟩, .opt ⟨(), f, .P, .lower⟩,
    .opt ⟨(), f, .P, .raise⟩])

theorem mem_keys9 (k : Key Unit (Fin 9)) : k ∈ keys9 := by
  match k with
  | .sig f => exact List.mem_flatMap.2 ⟨f, List.mem_finRange _, by simp⟩
  | .opt ⟨(), f, p, q⟩ => exact List.mem_flatMap.2 ⟨f, List.mem_finRange _, by cases p <;> cases q <;> simp⟩

def enum9 (n : Nat) : List (Fin n × Key Unit (Fin 9)) := (List.finRange n).flatMap (fun p => keys9.map (fun k => (p, k)))

theorem mem_enum9 {n : Nat} (r : Fin n × Key Unit (Fin 9)) : r ∈ enum9 n :=
  List.mem_flatMap.2 ⟨r.1, List.mem_finRange _, List.mem_map.2 ⟨r.2, mem_keys9 _, rfl⟩⟩

/-- Two lasers 0/1 and 8/9 with the frequency `-1` at the two sides of the modulator 2/3, 4/5, 6, 7, which nothing drives. -/
def duoEl : Fin 4 → AElem (Fin 10) Unit (Fin 9) ℤ ℚ
  | 0 => .other (.optical (.laser ⟨⟨0, 1⟩, 1, 0, .S, (), 8⟩))
  | 1 => .aom ⟨⟨2, 3⟩, ⟨4, 5⟩, 6, 7⟩
  | 2 => .other (.signal (.meanSquare 6 7))
  | 3 => .other (.optical (.laser ⟨⟨8, 9⟩, 1, 0, .S, (), 8⟩))

def duoOwner : Fin 10 → Fin 4 := ![0, 0, 1, 1, 1, 1, 1, 2, 3, 3]

def duoRule : Rule (Fin 10) Unit (Fin 9) ℤ where
  reject := reject9
  center := center9
  kind := ![some true, some true, some true, some true, some true, some true, some false, some false, some true, some true]
  opts _ p := p = .S
  G := ⊤

def duoFill : Sys (Fin 4) (Fin 10) (Key Unit (Fin 9)) where
  elements := [0, 1, 2, 3]
  port_owners := (List.finRange 10).map (fun p => (p, duoOwner p))
  port_owners_virtual := [(6, [2])]
  owners_ports := (List.finRange 4).map (fun e => (e, (List.finRange 10).filter (fun p => duoOwner p = e)))
  owners_ports_virtual := [(0, []), (1, []), (2, [6]), (3, [])]
  bond_pairs := [(1, [2]), (3, [0]), (5, [8]), (9, [4])]
  initial e := some (duoEl e).initial
  handler e := some (listed (enum9 10) ((duoEl e).ports duoRule.reject duoRule.center))

theorem duoFill_built : BuiltA duoFill duoEl duoRule where
  wf := by constructor <;> (try unfold Sys.Own) <;> (try unfold Sys.Port) <;> decide
  handler := fun o => ⟨_, rfl, lists_listed mem_enum9 _⟩
  initial := fun o => ⟨_, rfl, fun r => Iff.rfl⟩
  own := by unfold Sys.Own; decide
  aom := by
    intro o e he
    match o with
    | 0 | 2 | 3 => cases he
    | 1 =>
      cases he
      decide
  fits := by
    intro o
    have hl : ∀ p : Port (Fin 10), duoRule.kind p.i = some true → duoRule.kind p.o = some true → duoRule.Light p :=
      fun _ h1 h2 => ⟨h1, h2⟩
    have hf : ∀ f, reject9 f = false → duoRule.Freq f := fun f hf => ⟨AddSubgroup.mem_top _, hf⟩
    match o with
    | 0 => exact ⟨hl _ rfl rfl, rfl, hf _ (by decide)⟩
    | 1 => exact ⟨hl _ rfl rfl, hl _ rfl rfl, rfl⟩
    | 2 => exact ⟨rfl, rfl, by decide⟩
    | 3 => exact ⟨hl _ rfl rfl, rfl, hf _ (by decide)⟩
  bonds := fun p q h _ => bonds_kind (by decide) p q h

/-- **C142, drive.**  For raising fields the modulator asks for a drive at the sum of the frequencies (l.134) where lowering fields have
it ask for the difference: with light of one and the same frequency from both sides, and nothing that drives the modulator, it asks
for a drive at twice that frequency, and then for light that nothing can make. -/
theorem C142_drive_refuted : BuiltA duoFill duoEl duoRule ∧
    (∀ o, ∀ r ∈ (duoEl o).initial, ∃ k, r.2 = .opt k ∧ center9 k.cls = -1) ∧
    ∃ ch n st, run duoFill ch n = .ok (some st) ∧ ∃ d k, center9 d = -2 ∧ Has st.port_cplgs 6 (.sig d) ∧ center9 k.cls = 1 ∧
      Has st.port_cplgs 5 (.opt k) := by
  refine ⟨duoFill_built, ?_, fun _ => 0, 200, ?_⟩
  · intro o r hr
    match o with
    | 0 => simp [duoEl, AElem.initial, FElem.initial, optical_initial] at hr; rcases hr with rfl | rfl <;> exact ⟨_, rfl, by decide⟩
    | 3 => simp [duoEl, AElem.initial, FElem.initial, optical_initial] at hr; rcases hr with rfl | rfl <;> exact ⟨_, rfl, by decide⟩
    | 1 => simp [duoEl, AElem.initial] at hr
    | 2 => simp [duoEl, AElem.initial, FElem.initial, signal_initial] at hr
  have h : (match run duoFill (fun _ => 0) 200 with
    | .ok (some st) => decide (Key.sig 7 ∈ (st.port_cplgs.get? 6).getD ∅ ∧
        Key.opt ⟨(), 1, .S, .raise⟩ ∈ (st.port_cplgs.get? 5).getD ∅)
    | _ => false) = true := by decide +kernel
  split at h
  · rename_i st hr
    have hget : ∀ p k, k ∈ (st.port_cplgs.get? p).getD ∅ → Has st.port_cplgs p k := by
      intro p k hk
      unfold Has
      cases hg : st.port_cplgs.get? p <;> rw [hg] at hk <;> simp at hk
      exact ⟨_, rfl, hk⟩
    rw [decide_eq_true_eq] at h
    exact ⟨st, hr, 7, ⟨(), 1, .S, .raise⟩, by decide, hget _ _ h.1, by decide, hget _ _ h.2⟩
  · cases h

end Fill
