import Verif.Fill.AomFull
import Verif.Fill.Even
import Verif.Optics.Homodyne

/-!
# The keys that homodyne detectors ask for (C144)

Source: `/repo/phasor/optics/hidden_variable_homodyne.py` l.80-173, l.419-436 and l.463-514; the couplings are those of
`Verif/Optics/Homodyne.lean`.
-/

set_option linter.unusedSectionVars false

namespace Fill
open Py Ports Optics Circuit Inject

variable {E P O K V F : Type} [DecidableEq E] [DecidableEq P] [DecidableEq O] [DecidableEq K] [AddCommGroup K]
  [Field V] [LinearOrder V] [IsStrictOrderedRing V] [Field F] [StarRing F] [DecidableEq F]

/-! ## model -/

section Model
variable (reject : K → Bool)

/-- l.85-99: for the light of the source and the signals of an output, the light at the front that makes them. -/
def refer_out (source pfrom out : P) : Block P (Key O K) :=
  .pair source (.one out) none (fun k l =>
    match k, l with
    | .opt k, .sig l => if reject (down k l) then ∅ else {(pfrom, .opt (k.at (down k l)).conj)}
    | _, _ => ∅)

/-- l.101-131: for the light of the source and that of the front, the signals of an output. -/
def refer_beat (source pfrom out : P) : Block P (Key O K) :=
  .pair source (.one pfrom) (some partner) (fun k1 k2 =>
    match k1, k2 with
    | .opt a, .opt b => if reject (beat a b) then ∅ else {(out, .sig (beat a b))}
    | _, _ => ∅)

/-- The outputs for which `referred_ports_fill` is called, l.132-151. -/
def hd_outs (e : Homodyne P F) : List P :=
  [e.rtWpdI, e.rtWpdQ] ++ (match e.quanta with | none => [] | some (qI, qQ) => [qI, qQ]) ++
  (match e.relative with | none => [] | some (RinI, RadQ, _) => [RinI, RadQ])

/-- `ports_fill_2optical_2classical_hdyne`, l.463-514; its loops are those of nonlinear_utilities.py l.43-88. -/
def fill_hdyne (ins : List P) (out : P) : List (Block P (Key O K)) :=
  ins.flatMap (fun p => [fill_out reject p out, fill_beat reject p out])

/-- `HiddenVariableHomodynePD.system_setup_ports`, l.80-173. -/
def hd_ports (e : Homodyne P F) : List (Block P (Key O K)) :=
  (hd_outs e).flatMap (fun out =>
    [refer_out reject e.source_port e.po_Fr.i out, refer_beat reject e.source_port e.po_Fr.i out]) ++
  fill_hdyne reject [e.po_Fr.i, e.source_port] e.rtWpdCmn ++
  [copy e.po_Fr.i e.po_Bk.o, copy e.po_Fr.o e.po_Bk.i, copy e.po_Bk.i e.po_Fr.o, copy e.po_Bk.o e.po_Fr.i]

end Model

/-- `TotalDCPowerPD.system_setup_ports`, l.419-436.  Its loop l.420-426 goes over a set to which its own requests are added if they
are new, which python may not allow (`C144_quiet` says when they are not). -/
def total_dc_ports (port WpdDC : P) (QuantaDC : Option P) : List (Block P (Key O K)) :=
  [.each port (fun k => match k with | .opt k => {(port, .opt k.conj)} | .sig _ => ∅), .always {(WpdDC, .sig 0)}] ++
  (match QuantaDC with | none => [] | some q => [.always {(q, .sig 0)}])

/-! ## the detectors keep to the rules -/

section
variable {S : Sys E P (Key O K)} {bs : E → List (Block P (Key O K))} {ini : E → List (P × Key O K)} {A : Rule P O K V}

/-- The ports of the detector are of their kinds. -/
structure Rule.FitsH (A : Rule P O K V) (e : Homodyne P F) : Prop where
  Fr : A.Light e.po_Fr
  Bk : A.Light e.po_Bk
  source : A.kind e.source_port = some true
  outs : ∀ p ∈ hd_outs e, A.Sig p
  Cmn : A.Sig e.rtWpdCmn

theorem keeps_refer_out {source pfrom out : P} (hp : A.kind pfrom = some true) :
    (refer_out A.reject source pfrom out : Block P (Key O K)).Keeps A.Good := by
  intro q hq k1 k2 h1 h2 r hr
  rw [argPorts, List.mem_singleton] at hq
  subst hq
  cases k1 with
  | sig _ => simp at hr
  | opt k =>
  cases k2 with
  | opt _ => simp at hr
  | sig l =>
  dsimp only at hr
  split at hr
  · simp at hr
  rename_i hrej
  rw [Finset.mem_singleton] at hr
  subst hr
  exact ⟨hp, h1.2.1, down_mem h1.2.2.1 h2.2.1, Bool.eq_false_iff.2 hrej⟩

theorem keeps_refer_beat {source pfrom out : P} (ho : A.Sig out) :
    (refer_beat A.reject source pfrom out : Block P (Key O K)).Keeps A.Good := by
  intro q hq k1 k2 h1 h2 r hr
  rw [argPorts, List.mem_singleton] at hq
  subst hq
  cases k1 with
  | sig _ => simp at hr
  | opt k =>
  cases k2 with
  | sig _ => simp at hr
  | opt l =>
  dsimp only at hr
  split at hr
  · simp at hr
  rename_i hrej
  rw [Finset.mem_singleton] at hr
  subst hr
  exact ⟨ho, beat_mem h1.2.2.1 h2.2.2.1, Bool.eq_false_iff.2 hrej⟩

theorem keeps_homodyne {e : Homodyne P F} (h : A.FitsH e) :
    ∀ b ∈ (hd_ports A.reject e : List (Block P (Key O K))), b.Keeps A.Good := by
  intro b hb
  simp only [hd_ports, fill_hdyne, List.mem_append, List.mem_flatMap, List.mem_cons, List.not_mem_nil, or_false] at hb
  rcases hb with (⟨out, ho, rfl | rfl⟩ | ⟨p, rfl | rfl, rfl | rfl⟩) | rfl | rfl | rfl | rfl
  · exact keeps_refer_out h.Fr.1
  · exact keeps_refer_beat (h.outs out ho)
  · exact keeps_out
  · exact keeps_beat h.Cmn
  · exact keeps_out
  · exact keeps_beat h.Cmn
  · exact keeps_copy (h.Fr.1.trans h.Bk.2.symm)
  · exact keeps_copy (h.Fr.2.trans h.Bk.1.symm)
  · exact keeps_copy (h.Bk.1.trans h.Fr.2.symm)
  · exact keeps_copy (h.Bk.2.trans h.Fr.1.symm)

theorem keeps_total_dc {port W : P} {q : Option P} (hW : A.Sig W) (hq : ∀ p ∈ q, A.Sig p) (h0 : A.reject 0 = false) :
    ∀ b ∈ (total_dc_ports port W q : List (Block P (Key O K))), b.Keeps A.Good := by
  have h1 : ∀ {p : P}, A.Sig p → (Block.always {(p, Key.sig 0)} : Block P (Key O K)).Keeps A.Good := by
    intro p hp r hr
    rw [Finset.mem_singleton] at hr
    subst hr
    exact ⟨hp, A.G.zero_mem, h0⟩
  intro b hb
  simp only [total_dc_ports, List.mem_append, List.mem_cons, List.not_mem_nil, or_false] at hb
  rcases hb with (rfl | rfl) | hb
  · intro k hk r hr
    cases k with
    | sig _ => simp at hr
    | opt k =>
      rw [Finset.mem_singleton] at hr
      subst hr
      exact ⟨hk.1, hk.2⟩
  · exact h1 hW
  · cases q with
    | none => simp at hb
    | some q =>
      rw [List.mem_singleton] at hb
      subst hb
      exact h1 (hq q rfl)

/-! ## conjugate keys -/

theorem even_refer_out {source pfrom out : P} : (refer_out A.reject source pfrom out : Block P (Key O K)).EvenB A.Good Key.conj := by
  intro q hq k1 k2 h1 h2
  refine ⟨fun r hr => ?_, by simp⟩
  cases k1 with
  | sig _ => simp at hr
  | opt k =>
  cases k2 with
  | opt _ => simp at hr
  | sig l =>
  show _ ∈ (if A.reject (down k.conj (-l)) then ∅ else {(pfrom, .opt (k.conj.at (down k.conj (-l))).conj)} : Finset (P × Key O K))
  dsimp only at hr
  rw [down_conj]
  split at hr
  · simp at hr
  rename_i hrej
  rw [if_neg hrej]
  rw [Finset.mem_singleton] at hr ⊢
  subst hr
  rfl

theorem even_refer_beat (hA : A.Odd) {source pfrom out : P} :
    (refer_beat A.reject source pfrom out : Block P (Key O K)).EvenB A.Good Key.conj := by
  have h := even_beat (A := A) (O := O) hA (a := pfrom) (out := out)
  intro q hq k1 k2 _ _
  refine ⟨fun r hr => ?_, ?_⟩
  · cases k1 with
    | sig _ => simp at hr
    | opt k =>
    cases k2 with
    | sig _ => simp at hr
    | opt l =>
    rw [conj_opt, conj_opt]
    dsimp only at hr ⊢
    rw [beat_conj, hA.reject]
    split at hr
    · simp at hr
    · rename_i hrej
      rw [if_neg hrej]
      rw [Finset.mem_singleton] at hr ⊢
      subst hr
      rfl
  · rintro s ⟨⟩ h
    cases k1 with
    | sig _ => cases h
    | opt k =>
    cases k2 with
    | sig _ => cases h
    | opt l =>
    obtain ⟨h1, h2, h3⟩ := of_decide_eq_true h
    exact decide_eq_true ⟨h1, h2, congrArg Quantum.conj h3⟩

theorem even_homodyne (hA : A.Odd) {e : Homodyne P F} :
    ∀ b ∈ (hd_ports A.reject e : List (Block P (Key O K))), b.EvenB A.Good Key.conj := by
  intro b hb
  simp only [hd_ports, fill_hdyne, List.mem_append, List.mem_flatMap, List.mem_cons, List.not_mem_nil, or_false] at hb
  rcases hb with (⟨out, ho, rfl | rfl⟩ | ⟨p, rfl | rfl, rfl | rfl⟩) | rfl | rfl | rfl | rfl
  · exact even_refer_out
  · exact even_refer_beat hA
  · exact even_out
  · exact even_beat hA
  · exact even_out
  · exact even_beat hA
  · exact even_copy
  · exact even_copy
  · exact even_copy
  · exact even_copy

theorem even_total_dc {port W : P} {q : Option P} :
    ∀ b ∈ (total_dc_ports port W q : List (Block P (Key O K))), b.EvenB A.Good Key.conj := by
  have h1 : ∀ {p : P}, (Block.always {(p, Key.sig 0)} : Block P (Key O K)).EvenB A.Good Key.conj := by
    intro p r hr
    rw [Finset.mem_singleton] at hr ⊢
    subst hr
    rw [conj_sig, neg_zero]
  intro b hb
  simp only [total_dc_ports, List.mem_append, List.mem_cons, List.not_mem_nil, or_false] at hb
  rcases hb with (rfl | rfl) | hb
  · intro k hk r hr
    cases k with
    | sig _ => simp at hr
    | opt k =>
      rw [Finset.mem_singleton] at hr
      subst hr
      rw [conj_opt, conj_opt]
      exact Finset.mem_singleton_self _
  · exact h1
  · cases q with
    | none => simp at hb
    | some q =>
      rw [List.mem_singleton] at hb
      subst hb
      exact h1

/-- The elements treat conjugate keys alike. -/
structure KeptEven (S : Sys E P (Key O K)) (bs : E → List (Block P (Key O K))) (ini : E → List (P × Key O K)) (A : Rule P O K V) :
    Prop extends Kept S bs ini A where
  odd : A.Odd
  even : ∀ o, ∀ b ∈ bs o, b.EvenB A.Good Key.conj
  starts_even : ∀ o, ∀ r ∈ ini o, (r.1, Key.conj r.2) ∈ ini o

theorem KeptEven.evens (B : KeptEven S bs ini A) : Even S A.Good Key.conj where
  invol := Key.conj_conj
  init := by
    intro o _ reqs h r hr
    obtain ⟨reqs', h1, h2⟩ := B.initial o
    rw [h1] at h
    cases h
    exact (h2 _).2 (B.starts_even o r ((h2 r).1 hr))
  calls := by
    intro o ssp h v U F hs hg hU hF reqs hr r hm
    obtain ⟨ssp', g1, g2⟩ := B.handler o
    rw [g1] at h
    cases h
    obtain ⟨reqs', h1, h2⟩ := g2.requests (B.own o) (B.keeps o) hs hg
    rw [hr] at h1
    cases h1
    obtain ⟨b, hb, hy⟩ := (h2 r).1 hm
    exact (h2 _).2 ⟨b, hb, yields_even hg (B.own o) hb (B.even o b hb) hU hF hy⟩

variable {ch : Nat → Nat} {n : Nat} {st : St E P (Key O K)}

/-! ## C144 -/

/-- The ports of a detector that is its own oscillator. -/
def hd_all (e : Homodyne P F) : List P :=
  [e.po_Fr.i, e.po_Fr.o, e.po_Bk.i, e.po_Bk.o, e.rtWpdCmn] ++ hd_outs e

section Detector
variable {o : E} {e : Homodyne P F}

theorem hd_reads {reject : K → Bool} (hsrc : e.source_port = e.po_Fr.i) {b : Block P (Key O K)} (hb : b ∈ hd_ports reject e) {p : P}
    (hp : p ∈ b.reads) : p ∈ hd_all e := by
  simp only [hd_ports, fill_hdyne, List.mem_append, List.mem_flatMap, List.mem_cons, List.not_mem_nil, or_false, hsrc] at hb
  unfold hd_all
  rcases hb with (⟨out, ho, rfl | rfl⟩ | ⟨q, rfl | rfl, rfl | rfl⟩) | rfl | rfl | rfl | rfl <;>
  · simp only [refer_out, refer_beat, fill_out, fill_beat, copy, Block.reads, List.mem_cons, List.not_mem_nil, or_false] at hp
    rcases hp with rfl | rfl <;> simp_all

theorem Kept.servedH (B : Kept S bs ini A) (he : bs o = hd_ports A.reject e) (hsrc : e.source_port = e.po_Fr.i)
    (hown : ∀ p ∈ hd_all e, S.port_owners.get? p = some o) (hr : run S ch n = .ok (some st)) :
    Served S.Port (hd_ports A.reject e) (fun p k => Has st.port_cplgs p k) := by
  have R : Runs S A.Good o (hd_ports A.reject e) := by
    refine ⟨?_, fun b hb p hp => hown p (hd_reads hsrc hb hp), ?_⟩
    · intro ssp h
      obtain ⟨ssp', h1, h2⟩ := B.handler o
      rw [h1] at h
      cases h
      rw [he] at h2
      exact h2
    · have h := B.keeps o
      rw [he] at h
      exact h
  obtain ⟨ssp, hs, _⟩ := B.handler o
  exact R.served B.wf (by rw [hs]; rfl) (B.within.final B.wf B.handled hr).1

theorem hd_isPort (hown : ∀ p ∈ hd_all e, S.port_owners.get? p = some o) {p : P} (hp : p ∈ hd_all e) : S.Port p := by
  unfold Sys.Port
  rw [hown p hp]
  rfl

/-- **C144, beats.**  When the worklist ends, every beat within the order limits of two fields at the front is found at all
outputs. -/
theorem C144_beats (B : Kept S bs ini A) (he : bs o = hd_ports A.reject e) (hsrc : e.source_port = e.po_Fr.i)
    (hown : ∀ p ∈ hd_all e, S.port_owners.get? p = some o) (hr : run S ch n = .ok (some st)) {k l : OKey O K}
    (hk : Has st.port_cplgs e.po_Fr.i (.opt k)) (hl : Has st.port_cplgs e.po_Fr.i (.opt l)) (hkl : l.opt = k.opt ∧ l.pol = k.pol)
    (hq : k.q = .lower ∧ l.q = .raise) (hrej : A.reject (k.cls - l.cls) = false) :
    ∀ out ∈ e.rtWpdCmn :: hd_outs e, Has st.port_cplgs out (.sig (k.cls - l.cls)) := by
  intro out hout
  have hsv := B.servedH he hsrc hown hr
  have hb : beat k l = k.cls - l.cls := by
    unfold beat
    rw [hq.1]
  rw [← hb] at hrej ⊢
  refine hsv.beats (a := e.po_Fr.i) ?_ hk hl ⟨hkl.1, hkl.2, by rw [hq.1, hq.2]; rfl⟩ hrej (hd_isPort hown (by
    unfold hd_all; rcases List.mem_cons.1 hout with rfl | h <;> simp_all))
  rcases List.mem_cons.1 hout with rfl | h
  · simp [hd_ports, fill_hdyne]
  · refine List.mem_append_left _ (List.mem_append_left _ (List.mem_flatMap.2 ⟨out, h, ?_⟩))
    rw [hsrc]
    exact List.mem_cons_of_mem _ (List.mem_singleton.2 rfl)

/-- **C144, conjugates.**  In a system whose elements treat conjugate keys alike, as the detectors do (`even_homodyne`,
`even_total_dc`), the keys of every port are closed under conjugation. -/
theorem C144_conjugate (B : KeptEven S bs ini A) (hr : run S ch n = .ok (some st)) (p : P) (k : Key O K) :
    Has st.port_cplgs p k.conj ↔ Has st.port_cplgs p k := B.within.even B.wf B.evens hr p k

/-- **C144, loop.**  In such a system the power detector never adds to the set over which its loop goes: what it asks for is there. -/
theorem C144_quiet {U : P → Finset (Key O K)} {port W : P} {q : Option P} (hU : ∀ k ∈ U port, Key.conj k ∈ U port)
    (hk : ∀ k ∈ U port, ∃ j : OKey O K, k = .opt j) {F : P → Finset (Key O K)} {r : P × Key O K}
    (hy : ∃ b ∈ (total_dc_ports port W q : List (Block P (Key O K))), b.Yields U F r) :
    (r.1 = port ∧ r.2 ∈ U port) ∨ ((r.1 = W ∨ some r.1 = q) ∧ r.2 = .sig 0) := by
  obtain ⟨b, hb, hy⟩ := hy
  simp only [total_dc_ports, List.mem_append, List.mem_cons, List.not_mem_nil, or_false] at hb
  rcases hb with (rfl | rfl) | hb
  · obtain ⟨k, hk1, hk2⟩ := hy
    obtain ⟨j, rfl⟩ := hk k hk1
    rw [Finset.mem_singleton] at hk2
    subst hk2
    exact Or.inl ⟨rfl, hU _ hk1⟩
  · rw [Block.Yields, Finset.mem_singleton] at hy
    subst hy
    exact Or.inr ⟨Or.inl rfl, rfl⟩
  · cases q with
    | none => simp at hb
    | some q =>
      rw [List.mem_singleton] at hb
      subst hb
      rw [Block.Yields, Finset.mem_singleton] at hy
      subst hy
      exact Or.inr ⟨Or.inr rfl, rfl⟩

/-- The nodes that a coupling takes fields from or gives them to. -/
def all_nodes : Coupling P (Key O K) F → List (P × Key O K)
  | .edge f t _ => [f, t]
  | .source t _ => [t]
  | .multEdge f t _ l => f :: t :: l
  | .multSource t _ l => t :: l
  | .triplet p q t _ => [p, q, t]
  | .tripletNorm p q t m _ _ => [p, q, t, m]
  | .tripletNorms p q t ms _ _ => p :: q :: t :: ms

/-- The power detectors over whose readings the couplings are normed. -/
def hd_powers (e : Homodyne P F) : List P :=
  e.PWR_tot :: (match e.relative with | none => [] | some (_, _, PWR_in) => [PWR_in])

/-- The reading of a power detector is a node once there is light. -/
theorem Kept.power (B : Kept S bs ini A) (hr : run S ch n = .ok (some st)) {o' : E} {port W : P} {q : Option P}
    (he : bs o' = total_dc_ports port W q) (hW : S.Port W) {k : Key O K} (hk : Has st.port_cplgs port k) :
    Has st.port_cplgs W (.sig 0) := by
  obtain ⟨ssp, hs, hl⟩ := B.handler o'
  have hm : Must S A.Good o' [(port, k)] (W, .sig 0) := by
    have hown : S.Own o' port := B.own o' (.each port (fun k => match k with | .opt k => {(port, .opt k.conj)} | .sig _ => ∅))
      (by rw [he]; simp [total_dc_ports]) port (by simp [Block.reads])
    refine ⟨by simpa using hown, by simp, ?_⟩
    intro ssp' h' v U F hv hg _ _ reqs hreq
    rw [hs] at h'
    cases h'
    obtain ⟨reqs', h1, h2⟩ := hl.requests (B.own o') (B.keeps o') hv hg
    rw [hreq] at h1
    cases h1
    refine (h2 _).2 ⟨.always {(W, .sig 0)}, by rw [he]; simp [total_dc_ports], ?_⟩
    exact Finset.mem_singleton_self _
  refine (B.within.final B.wf B.handled hr).1.rule o' (by rw [hs]; rfl) _ W _ hm ?_ W (.refl _) hW
  intro x hx
  rw [List.mem_singleton] at hx
  subst hx
  exact hk

/-- **C144, nodes.**  Where conjugate keys are treated alike, the detector sets up its couplings without an exception, and every node
that they take light from, norm it by or give a signal to is a node of the system. -/
theorem C144_nodes (B : KeptEven S bs ini A) (he : bs o = hd_ports A.reject e) (hfit : A.FitsH e) (hsrc : e.source_port = e.po_Fr.i)
    (hown : ∀ p ∈ hd_all e, S.port_owners.get? p = some o) (hr : run S ch n = .ok (some st))
    (hpow : ∀ W ∈ hd_powers e, S.Port W ∧ ∃ o' q, bs o' = total_dc_ports e.po_Fr.i W q)
    {env : OEnv P O K F} (ho : ∀ p k, k ∈ env.okeys p ↔ Has st.port_cplgs p (.opt k))
    (hs : ∀ p k, k ∈ env.skeys p ↔ Has st.port_cplgs p (.sig k)) (hrej : env.reject = A.reject) (abs : F → F) (h_Js : F) :
    ∃ cs, e.setup env abs h_Js = .ok cs ∧ ∀ c ∈ cs, ∀ y ∈ all_nodes c, Has st.port_cplgs y.1 y.2 := by
  have hsv := B.toKept.servedH he hsrc hown hr
  have hneg : ∀ p k, k ∈ env.skeys p → -k ∈ env.skeys p := by
    intro p k hk
    rw [hs] at hk ⊢
    exact (C144_conjugate B hr p (.sig k)).2 hk
  have isP : ∀ {p : P}, p ∈ hd_all e → S.Port p := fun h => hd_isPort hown h
  have pw : ∀ {k : Key O K}, Has st.port_cplgs e.po_Fr.i k → ∀ W ∈ hd_powers e, Has st.port_cplgs W (.sig 0) := by
    intro k hk W hW
    obtain ⟨h1, o', q, h2⟩ := hpow W hW
    exact B.toKept.power hr h2 h1 hk
  -- the light that makes a signal with a field is asked for
  have back : ∀ out, A.Sig out → fill_out A.reject e.po_Fr.i out ∈ (hd_ports A.reject e : List (Block P (Key O K))) →
      ∀ (k : OKey O K) (l : K), Has st.port_cplgs e.po_Fr.i (.opt k) → Has st.port_cplgs out (.sig l) →
      A.reject (k.cls + l) = false → Has st.port_cplgs e.po_Fr.i (.opt (k.at (k.cls + l))) := by
    intro out hout hb k l hk hl hj
    have hkc : Has st.port_cplgs e.po_Fr.i (.opt k.conj) := (C144_conjugate B hr _ (.opt k)).2 hk
    have hln : Has st.port_cplgs out (.sig (-l)) := (C144_conjugate B hr _ (.sig l)).2 hl
    have main : ∀ l', Has st.port_cplgs out (.sig l') → down k.conj l' = k.cls + l →
        Has st.port_cplgs e.po_Fr.i (.opt (k.at (k.cls + l))) := by
      intro l' hl' hd
      refine hsv.pair e.po_Fr.i (.one out) none _ hb (by simpa using light_ne hfit.Fr.1 hout) out (by simp [argPorts]) (.opt k.conj)
        (.sig l') hkc hl' (by simp) (e.po_Fr.i, .opt (k.at (k.cls + l))) ?_ (isP (by simp [hd_all]))
      show _ ∈ (if A.reject (down k.conj l') = true then ∅ else _ : Finset (P × Key O K))
      rw [hd, if_neg (by rw [hj]; simp), Finset.mem_singleton]
      congr 2
      rw [← OKey.conj_conj (k.at (k.cls + l))]
      rfl
    cases hq : k.q with
    | lower =>
      refine main l hl ?_
      unfold down
      rw [conj_q, hq]
      rfl
    | raise =>
      refine main (-l) hln ?_
      unfold down
      rw [conj_q, hq]
      show k.cls - -l = _
      rw [sub_neg_eq_add]
  have pairs : ∀ (mk : P × Key O K → P × Key O K → P × Key O K → F → Coupling P (Key O K) F) (norms : List P) (out : P) (cL cR : F)
      (k : OKey O K) (lk : K), (∀ a b t g, all_nodes (mk a b t g) = a :: b :: t :: norms.map (fun p => sn p 0)) →
      norms ⊆ hd_powers e → A.Sig out → fill_out A.reject e.po_Fr.i out ∈ (hd_ports A.reject e : List (Block P (Key O K))) →
      Has st.port_cplgs e.po_Fr.i (.opt k) → Has st.port_cplgs out (.sig lk) →
      ∀ c ∈ hd_pair env mk e.po_Fr.i e.po_Fr.i out cL cR k lk, ∀ y ∈ all_nodes c, Has st.port_cplgs y.1 y.2 := by
    intro mk norms out cL cR k lk hmk hn hout hb hk hl c hc y hy
    have hkc : Has st.port_cplgs e.po_Fr.i (.opt k.conj) := (C144_conjugate B hr _ (.opt k)).2 hk
    have hln : Has st.port_cplgs out (.sig (-lk)) := (C144_conjugate B hr _ (.sig lk)).2 hl
    have one : ∀ (f lt : K) (g : F), Has st.port_cplgs out (.sig lt) → Has st.port_cplgs e.po_Fr.i (.opt (k.at f)) →
        c ∈ [mk (on e.po_Fr.i (k.at f)) (on e.po_Fr.i k.conj) (sn out lt) g] → Has st.port_cplgs y.1 y.2 := by
      intro f lt g h1 h2 hc
      rw [List.mem_singleton] at hc
      subst hc
      rw [hmk] at hy
      simp only [List.mem_cons, List.mem_map] at hy
      rcases hy with rfl | rfl | rfl | ⟨p, hp, rfl⟩
      · exact h2
      · exact hkc
      · exact h1
      · exact pw hk p (hn hp)
    have hP : ∀ l, Has st.port_cplgs out (.sig l) → env.reject (k.cls + l) = false →
        Has st.port_cplgs e.po_Fr.i (.opt (k.at (k.cls + l))) :=
      fun l h1 h2 => back out hout hb k l hk h1 (by rw [← hrej]; exact h2)
    unfold hd_pair at hc
    cases hq : k.q with
    | lower =>
      rw [hq] at hc
      rcases List.mem_append.1 hc with hc | hc
      · obtain ⟨h1, h2⟩ := mem_sideband hc
        exact one _ _ _ hl (hP _ hl h1) h2
      · split_ifs at hc with h
        · obtain ⟨h1, h2⟩ := mem_sideband hc
          exact one _ _ _ hln (hP _ hln h1) h2
        · simp at hc
    | raise =>
      rw [hq] at hc
      rcases List.mem_append.1 hc with hc | hc
      · obtain ⟨h1, h2⟩ := mem_sideband hc
        exact one _ _ _ hln (hP _ hl h1) h2
      · split_ifs at hc with h
        · obtain ⟨h1, h2⟩ := mem_sideband hc
          exact one _ _ _ hl (hP _ hln h1) h2
        · simp at hc
  have chan : ∀ c ∈ e.channels env abs, c.out ∈ hd_outs e ∧ c.norm_ports ⊆ hd_powers e := by
    intro c hc
    unfold Homodyne.channels at hc
    unfold hd_outs hd_powers
    rcases hq : e.quanta with _ | ⟨qI, qQ⟩ <;> rcases hl : e.relative with _ | ⟨r1, r2, r3⟩ <;>
    · rw [hq, hl] at hc
      simp only [List.mem_append, List.mem_cons, List.not_mem_nil, or_false] at hc
      rcases hc with ((rfl | rfl) | hc) | hc <;> (try rcases hc with rfl | rfl) <;> simp
  have hok : ∃ cs, e.setup env abs h_Js = .ok cs := by
    refine blocks_ok (fun b hb => ?_)
    simp only [List.mem_cons, List.not_mem_nil, or_false] at hb
    rcases hb with rfl | rfl | rfl | rfl | rfl
    · refine blocks_ok (fun b hb => ?_)
      obtain ⟨k, _, rfl⟩ := List.mem_map.1 hb
      refine blocks_ok (fun b hb => ?_)
      obtain ⟨c, _, rfl⟩ := List.mem_map.1 hb
      exact pair_loop_ok (hneg _) _ _ _ _ (fun _ h => h)
    · exact ⟨_, rfl⟩
    · exact ⟨_, rfl⟩
    · refine blocks_ok (fun b hb => ?_)
      obtain ⟨k, _, rfl⟩ := List.mem_map.1 hb
      exact pair_loop_ok (hneg _) _ _ _ _ (fun _ h => h)
    · rw [if_neg (by simp [hsrc])]
      exact ⟨_, rfl⟩
  obtain ⟨cs, hcs⟩ := hok
  refine ⟨cs, hcs, ?_⟩
  intro c hc y hy
  obtain ⟨b, hb, d, hd, hcd⟩ := mem_blocks hcs hc
  have wire : ∀ {p q : P}, copy p q ∈ (hd_ports A.reject e : List (Block P (Key O K))) → q ∈ hd_all e →
      c ∈ (env.okeys p).map (fun k => Coupling.edge (on p k) (on q k) 1) → Has st.port_cplgs y.1 y.2 := by
    intro p q hb hq hc
    obtain ⟨k, hk, rfl⟩ := List.mem_map.1 hc
    simp only [all_nodes, List.mem_cons, List.not_mem_nil, or_false] at hy
    rcases hy with rfl | rfl
    · exact (ho _ _).1 hk
    · exact hsv.copy hb ((ho _ _).1 hk) (isP hq)
  simp only [List.mem_cons, List.not_mem_nil, or_false] at hb
  rcases hb with rfl | rfl | rfl | rfl | rfl
  · obtain ⟨k, hk, d1, hd1, hc1⟩ := mem_blocks_map hd hcd
    obtain ⟨ch, hch, d2, hd2, hc2⟩ := mem_blocks_map hd1 hc1
    obtain ⟨lk, h1, _, h3⟩ := mem_pair_loop hd2 hc2
    obtain ⟨g1, g2⟩ := chan ch hch
    rw [hsrc] at hk h3
    refine pairs _ ch.norm_ports ch.out _ _ k lk (fun _ _ _ _ => rfl) g2 (hfit.outs _ g1) ?_ ((ho _ _).1 hk) ((hs _ _).1 h1) c h3 y hy
    refine List.mem_append_left _ (List.mem_append_left _ (List.mem_flatMap.2 ⟨_, g1, ?_⟩))
    rw [hsrc]
    exact List.mem_cons_self
  · cases hd
    exact wire (by simp [hd_ports]) (by simp [hd_all]) hcd
  · cases hd
    exact wire (by simp [hd_ports]) (by simp [hd_all]) hcd
  · obtain ⟨k, hk, d1, hd1, hc1⟩ := mem_blocks_map hd hcd
    obtain ⟨lk, h1, _, h3⟩ := mem_pair_loop hd1 hc1
    exact pairs _ [e.PWR_tot] e.rtWpdCmn _ _ k lk (fun _ _ _ _ => rfl) (by simp [hd_powers]) hfit.Cmn
      (by simp [hd_ports, fill_hdyne]) ((ho _ _).1 hk) ((hs _ _).1 h1) c h3 y hy
  · rw [if_neg (by simp [hsrc])] at hd
    cases hd
    simp at hcd

end Detector

end

/-! ## Two lasers at a detector -/

/-- Ports: laser 0/1, laser of another frequency 2/3, where they join 4, 5 and 6, detector 7/8 and 9/10 with its outputs 11, 12 and 13,
reading of its power detector 14. -/
def hd : Homodyne (Fin 15) ℚ := ⟨⟨7, 8⟩, ⟨9, 10⟩, 7, 0, 11, 12, 13, 14, none, none⟩

def hdOther : Fin 5 → FElem (Fin 15) Unit (Fin 5) ℚ ℚ
  | 0 => .optical (.laser ⟨⟨0, 1⟩, 1, 0, .S, (), 0⟩)
  | 1 => .optical (.laser ⟨⟨2, 3⟩, 1, 0, .S, (), 1⟩)
  | 2 => .linear [(4, 6), (5, 6)]
  | 3 => .linear []
  | 4 => .linear []

def hdBlocks (o : Fin 5) : List (Block (Fin 15) (Key Unit (Fin 5))) :=
  if o = 3 then hd_ports reject5 hd else if o = 4 then total_dc_ports 7 14 none else (hdOther o).ports reject5 moCenter

def hdOwner : Fin 15 → Fin 5 := ![0, 0, 1, 1, 2, 2, 2, 3, 3, 3, 3, 3, 3, 3, 4]

def hdRule : Rule (Fin 15) Unit (Fin 5) ℚ where
  reject := reject5
  center := moCenter
  kind p := if 11 ≤ p then some false else some true
  opts _ p := p = .S
  G := ⊤

def hdFill : Sys (Fin 5) (Fin 15) (Key Unit (Fin 5)) where
  elements := [0, 1, 2, 3, 4]
  port_owners := (List.finRange 15).map (fun p => (p, hdOwner p))
  port_owners_virtual := [(7, [4])]
  owners_ports := (List.finRange 5).map (fun e => (e, (List.finRange 15).filter (fun p => hdOwner p = e)))
  owners_ports_virtual := [(0, []), (1, []), (2, []), (3, []), (4, [7])]
  bond_pairs := [(1, [4]), (3, [5]), (6, [7])]
  initial e := some (hdOther e).initial
  handler e := some (listed (enum5 15) (hdBlocks e))

theorem hdRule_odd : hdRule.Odd :=
  ⟨fun f => (odd5 f).1, fun f => by show ((center5 (-f) : ℤ) : ℚ) = -((center5 f : ℤ) : ℚ); rw [(odd5 f).2]; push_cast; rfl⟩

theorem hd_fits : hdRule.FitsH hd where
  Fr := ⟨rfl, rfl⟩
  Bk := ⟨rfl, rfl⟩
  source := rfl
  outs := by unfold Rule.Sig; decide
  Cmn := rfl

theorem hdFill_kept : KeptEven hdFill hdBlocks (fun o => (hdOther o).initial) hdRule where
  wf := by constructor <;> (try unfold Sys.Own) <;> (try unfold Sys.Port) <;> decide
  handler := fun o => ⟨_, rfl, lists_listed mem_enum5 _⟩
  initial := fun o => ⟨_, rfl, fun r => Iff.rfl⟩
  own := by unfold Sys.Own; decide
  keeps := by
    intro o
    have hl : ∀ p : Port (Fin 15), hdRule.kind p.i = some true → hdRule.kind p.o = some true → hdRule.Light p :=
      fun _ h1 h2 => ⟨h1, h2⟩
    have hf : ∀ f, reject5 f = false → hdRule.Freq f := fun f hf => ⟨AddSubgroup.mem_top _, hf⟩
    match o with
    | 0 => exact keeps_ports (A := hdRule) (e := hdOther 0) ⟨hl _ rfl rfl, rfl, hf _ (by decide)⟩
    | 1 => exact keeps_ports (A := hdRule) (e := hdOther 1) ⟨hl _ rfl rfl, rfl, hf _ (by decide)⟩
    | 2 =>
      intro b hb
      have hb' : b = copy 4 6 ∨ b = copy 5 6 := by simpa [hdBlocks, hdOther, FElem.ports] using hb
      rcases hb' with rfl | rfl <;> exact keeps_copy rfl
    | 3 => exact keeps_homodyne (A := hdRule) hd_fits
    | 4 => exact keeps_total_dc (A := hdRule) (port := 7) (W := 14) (q := none) rfl (by simp) (by decide)
  starts := by
    intro o
    have hl : ∀ p : Port (Fin 15), hdRule.kind p.i = some true → hdRule.kind p.o = some true → hdRule.Light p :=
      fun _ h1 h2 => ⟨h1, h2⟩
    have hf : ∀ f, reject5 f = false → hdRule.Freq f := fun f hf => ⟨AddSubgroup.mem_top _, hf⟩
    match o with
    | 0 => exact keeps_initial (A := hdRule) (e := hdOther 0) ⟨hl _ rfl rfl, rfl, hf _ (by decide)⟩
    | 1 => exact keeps_initial (A := hdRule) (e := hdOther 1) ⟨hl _ rfl rfl, rfl, hf _ (by decide)⟩
    | 2 | 3 | 4 => intro r hr; simp [hdOther, FElem.initial] at hr
  bonds := fun p q h _ => bonds_kind (by decide) p q h
  odd := hdRule_odd
  even := by
    intro o
    match o with
    | 0 => exact even_ports (A := hdRule) hdRule_odd (e := hdOther 0) trivial
    | 1 => exact even_ports (A := hdRule) hdRule_odd (e := hdOther 1) trivial
    | 2 => exact even_ports (A := hdRule) hdRule_odd (e := hdOther 2) trivial
    | 3 => exact even_homodyne (A := hdRule) hdRule_odd
    | 4 => exact even_total_dc (A := hdRule) (port := 7) (W := 14) (q := none)
  starts_even := fun o => even_initial (e := hdOther o)

/-- The hypotheses are met together, and the result is not trivial: the detector has the beat of the lasers, and its power detector a
reading. -/
example : KeptEven hdFill hdBlocks (fun o => (hdOther o).initial) hdRule ∧ hdBlocks 3 = hd_ports hdRule.reject hd ∧ hdRule.FitsH hd ∧
    hd.source_port = hd.po_Fr.i ∧ (∀ p ∈ hd_all hd, hdFill.port_owners.get? p = some 3) ∧
    (∀ W ∈ hd_powers hd, hdFill.Port W ∧ ∃ o' q, hdBlocks o' = total_dc_ports hd.po_Fr.i W q) ∧
    outcome hdFill (fun _ => 0) 60 11 = some (sigs [0, 1, 4]) ∧ outcome hdFill (fun _ => 0) 60 14 = some (sigs [0]) := by
  refine ⟨hdFill_kept, rfl, hd_fits, rfl, by decide, ?_, by decide +kernel, by decide +kernel⟩
  intro W hW
  have : W = 14 := by simpa [hd_powers, hd] using hW
  subst this
  exact ⟨by unfold Sys.Port; decide, 4, none, rfl⟩

/-- A set of keys as `C144_quiet` asks for, and a request. -/
example : ∃ U : Fin 15 → Finset (Key Unit (Fin 5)), (∀ k ∈ U 7, Key.conj k ∈ U 7) ∧ (∀ k ∈ U 7, ∃ j : OKey Unit (Fin 5), k = .opt j) ∧
    ∃ b ∈ (total_dc_ports 7 14 none : List (Block (Fin 15) (Key Unit (Fin 5)))), b.Yields U (fun _ => ∅) (7, .opt ⟨(), 1, .S, .raise⟩) := by
  refine ⟨fun _ => {.opt ⟨(), 1, .S, .lower⟩, .opt ⟨(), 1, .S, .raise⟩}, by decide, ?_, ?_⟩
  · intro k hk
    simp only [Finset.mem_insert, Finset.mem_singleton] at hk
    rcases hk with rfl | rfl <;> exact ⟨_, rfl⟩
  · exact ⟨_, List.mem_append_left _ List.mem_cons_self, .opt ⟨(), 1, .S, .lower⟩, by decide, by decide⟩

/-! ## An oscillator of another polarization -/

/-- Ports: oscillator 0/1, laser 2/3 with another polarization and frequency, space 4 and 5 behind it, detector 6/7 and 8/9 with its
outputs 10, 11 and 12, reading of its power detector 13. -/
def ho : Homodyne (Fin 14) ℚ := ⟨⟨6, 7⟩, ⟨8, 9⟩, 1, 0, 10, 11, 12, 13, none, none⟩

def hoOther : Fin 5 → FElem (Fin 14) Unit (Fin 5) ℚ ℚ
  | 0 => .optical (.laser ⟨⟨0, 1⟩, 1, 0, .S, (), 0⟩)
  | 1 => .optical (.laser ⟨⟨2, 3⟩, 1, 0, .P, (), 1⟩)
  | 2 => .linear [(4, 5)]
  | 3 => .linear []
  | 4 => .linear []

def hoBlocks (o : Fin 5) : List (Block (Fin 14) (Key Unit (Fin 5))) :=
  if o = 3 then hd_ports reject5 ho else if o = 4 then total_dc_ports 1 13 none else (hoOther o).ports reject5 moCenter

def hoOwner : Fin 14 → Fin 5 := ![0, 0, 1, 1, 2, 2, 3, 3, 3, 3, 3, 3, 3, 4]

def hoRule : Rule (Fin 14) Unit (Fin 5) ℚ where
  reject := reject5
  center := moCenter
  kind p := if 10 ≤ p then some false else some true
  opts _ _ := True
  G := ⊤

def hoFill : Sys (Fin 5) (Fin 14) (Key Unit (Fin 5)) where
  elements := [0, 1, 2, 3, 4]
  port_owners := (List.finRange 14).map (fun p => (p, hoOwner p))
  port_owners_virtual := [(1, [3, 4])]
  owners_ports := (List.finRange 5).map (fun e => (e, (List.finRange 14).filter (fun p => hoOwner p = e)))
  owners_ports_virtual := [(0, []), (1, []), (2, []), (3, [1]), (4, [1])]
  bond_pairs := [(3, [4]), (5, [6])]
  initial e := some (hoOther e).initial
  handler e := some (listed (enum5 14) (hoBlocks e))

theorem hoRule_odd : hoRule.Odd :=
  ⟨fun f => (odd5 f).1, fun f => by show ((center5 (-f) : ℤ) : ℚ) = -((center5 f : ℤ) : ℚ); rw [(odd5 f).2]; push_cast; rfl⟩

theorem ho_fits : hoRule.FitsH ho where
  Fr := ⟨rfl, rfl⟩
  Bk := ⟨rfl, rfl⟩
  source := rfl
  outs := by unfold Rule.Sig; decide
  Cmn := rfl

theorem hoFill_kept : KeptEven hoFill hoBlocks (fun o => (hoOther o).initial) hoRule where
  wf := by constructor <;> (try unfold Sys.Own) <;> (try unfold Sys.Port) <;> decide
  handler := fun o => ⟨_, rfl, lists_listed mem_enum5 _⟩
  initial := fun o => ⟨_, rfl, fun r => Iff.rfl⟩
  own := by unfold Sys.Own; decide
  keeps := by
    intro o
    have hl : ∀ p : Port (Fin 14), hoRule.kind p.i = some true → hoRule.kind p.o = some true → hoRule.Light p :=
      fun _ h1 h2 => ⟨h1, h2⟩
    have hf : ∀ f, reject5 f = false → hoRule.Freq f := fun f hf => ⟨AddSubgroup.mem_top _, hf⟩
    match o with
    | 0 => exact keeps_ports (A := hoRule) (e := hoOther 0) ⟨hl _ rfl rfl, trivial, hf _ (by decide)⟩
    | 1 => exact keeps_ports (A := hoRule) (e := hoOther 1) ⟨hl _ rfl rfl, trivial, hf _ (by decide)⟩
    | 2 =>
      intro b hb
      have hb' : b = copy 4 5 := by simpa [hoBlocks, hoOther, FElem.ports] using hb
      subst hb'
      exact keeps_copy rfl
    | 3 => exact keeps_homodyne (A := hoRule) ho_fits
    | 4 => exact keeps_total_dc (A := hoRule) (port := 1) (W := 13) (q := none) rfl (by simp) (by decide)
  starts := by
    intro o
    have hl : ∀ p : Port (Fin 14), hoRule.kind p.i = some true → hoRule.kind p.o = some true → hoRule.Light p :=
      fun _ h1 h2 => ⟨h1, h2⟩
    have hf : ∀ f, reject5 f = false → hoRule.Freq f := fun f hf => ⟨AddSubgroup.mem_top _, hf⟩
    match o with
    | 0 => exact keeps_initial (A := hoRule) (e := hoOther 0) ⟨hl _ rfl rfl, trivial, hf _ (by decide)⟩
    | 1 => exact keeps_initial (A := hoRule) (e := hoOther 1) ⟨hl _ rfl rfl, trivial, hf _ (by decide)⟩
    | 2 | 3 | 4 => intro r hr; simp [hoOther, FElem.initial] at hr
  bonds := fun p q h _ => bonds_kind (by decide) p q h
  odd := hoRule_odd
  even := by
    intro o
    match o with
    | 0 => exact even_ports (A := hoRule) hoRule_odd (e := hoOther 0) trivial
    | 1 => exact even_ports (A := hoRule) hoRule_odd (e := hoOther 1) trivial
    | 2 => exact even_ports (A := hoRule) hoRule_odd (e := hoOther 2) trivial
    | 3 => exact even_homodyne (A := hoRule) hoRule_odd
    | 4 => exact even_total_dc (A := hoRule) (port := 1) (W := 13) (q := none)
  starts_even := fun o => even_initial (e := hoOther o)

theorem ho_many : outcome hoFill (fun _ => 0) 60 10 = some (sigs [1, 4]) := by decide +kernel

theorem ho_few : outcome hoFill (fun _ => 9) 60 10 = some ∅ := by decide +kernel

/-- **C144, source.**  With an oscillator at another port the keys of the outputs depend on the order of the worklist: when the key of the
front is new, `symmetric_update` does not select (l.117-121 give no `subset_first`), and the detector asks for the beat of fields whose
polarizations do not meet. -/
theorem C144_source_refuted : KeptEven hoFill hoBlocks (fun o => (hoOther o).initial) hoRule ∧ hoBlocks 3 = hd_ports hoRule.reject ho ∧
    ho.source_port ≠ ho.po_Fr.i ∧
    ∃ ch n st ch' n' st', run hoFill ch n = .ok (some st) ∧ run hoFill ch' n' = .ok (some st') ∧
      Has st.port_cplgs ho.rtWpdI (.sig 1) ∧ ∀ k, ¬ Has st'.port_cplgs ho.rtWpdI k := by
  refine ⟨hoFill_kept, rfl, by decide, fun _ => 0, 60, ?_⟩
  obtain ⟨st, hr, hs⟩ := outcome_run ho_many
  obtain ⟨st', hr', hs'⟩ := outcome_run ho_few
  refine ⟨st, fun _ => 9, 60, st', hr, hr', ?_, ?_⟩
  · exact (hs _).2 (by decide)
  · intro k hk
    simpa using (hs' k).1 hk

end Fill
