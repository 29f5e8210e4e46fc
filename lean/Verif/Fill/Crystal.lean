import Verif.Fill.AomFull
import Verif.Fill.Homodyne
import Verif.Ode.Crystal

/-!
# The keys that nonlinear crystals ask for (C152)

Source: `/repo/phasor/optics/nonlinear_crystal.py` l.78-148; the equations are those of `Verif/Ode/Crystal.lean`.
-/

set_option linter.unusedSectionVars false

namespace Fill
open Py Ports Optics Circuit Inject

variable {E P O K V R : Type} [DecidableEq E] [DecidableEq P] [DecidableEq O] [DecidableEq K] [AddCommGroup O] [AddCommGroup K]
  [Field V] [LinearOrder V] [IsStrictOrderedRing V] [CommRing R] [Algebra ℚ R] [DecidableEq R]

/-! ## model -/

section Model
variable (rejO : O → Bool) (reject : K → Bool)

/-- A key, if it is within the order limits, l.112-116 and l.131-135; `rejO` is `reject_optical_frequency_order`. -/
def within (out : P) (k : OKey O K) : Finset (P × Key O K) :=
  if rejO k.opt = false ∧ reject k.cls = false then {(out, .opt k)} else ∅

/-- The body l.95-144 of the two loops, for `kfrom` and `kfrom2`. -/
def crystal_body (out : P) : Key O K → Key O K → Finset (P × Key O K)
  | .opt k, .opt k2 =>
    if k.pol ≠ k2.pol then ∅
    else
      (if k2.q = k.q then within rejO reject out { k with opt := k.opt + k2.opt, cls := k.cls + k2.cls }
        else within rejO reject out { k with opt := k.opt - k2.opt, cls := k.cls - k2.cls }) ∪
      (if k2.q ≠ k.q then within rejO reject out { k with opt := k2.opt - k.opt, cls := k2.cls - k.cls, q := k2.q } else ∅)
  | _, _ => ∅

/-- One turn of the loop l.84-147; a key without an optical frequency is a KeyError at l.89. -/
def crystal_turn (port tport : Port P) : List (Block P (Key O K)) :=
  [.check port.i (fun k => match k with | .opt _ => true | .sig _ => false) .keyError, copy port.i tport.o,
    .prod port.i port.i (crystal_body rejO reject tport.o), copy port.o tport.i]

/-- `NonlinearCrystal.system_setup_ports`, l.78-148. -/
def crystal_ports (po_Fr po_Bk : Port P) : List (Block P (Key O K)) :=
  crystal_turn rejO reject po_Fr po_Bk ++ crystal_turn rejO reject po_Bk po_Fr

end Model

/-! ## the crystal keeps to the rules -/

section
variable {S : Sys E P (Key O K)} {bs : E → List (Block P (Key O K))} {ini : E → List (P × Key O K)} {A : Rule P O K V}
  {rejO : O → Bool}

/-- The optical frequencies of the system: sums and differences of them that are within the limits are among them. -/
structure Mixes (A : Rule P O K V) (rejO : O → Bool) : Prop where
  add : ∀ o1 o2 p, A.opts o1 p → A.opts o2 p → rejO (o1 + o2) = false → A.opts (o1 + o2) p
  sub : ∀ o1 o2 p, A.opts o1 p → A.opts o2 p → rejO (o1 - o2) = false → A.opts (o1 - o2) p

theorem mem_within {reject : K → Bool} {out : P} {k : OKey O K} {r : P × Key O K} :
    r ∈ within rejO reject out k ↔ rejO k.opt = false ∧ reject k.cls = false ∧ r = (out, .opt k) := by
  unfold within
  split_ifs with h
  · rw [Finset.mem_singleton]
    exact ⟨fun hr => ⟨h.1, h.2, hr⟩, fun hr => hr.2.2⟩
  · simp only [Finset.notMem_empty, false_iff]
    exact fun hr => h ⟨hr.1, hr.2.1⟩

theorem keeps_crystal (hm : Mixes A rejO) {p q : Port P} (h1 : A.Light p) (h2 : A.Light q) :
    ∀ b ∈ (crystal_ports rejO A.reject p q : List (Block P (Key O K))), b.Keeps A.Good := by
  have chk : ∀ {p : P}, A.kind p = some true → (Block.check p (fun k : Key O K => match k with | .opt _ => true | .sig _ => false)
      .keyError : Block P (Key O K)).Keeps A.Good := by
    intro p hp k hk
    cases k with
    | opt k => rfl
    | sig f => exact absurd (hp.symm.trans hk.1) (by simp)
  have prd : ∀ {a t : P}, A.kind t = some true → (Block.prod a a (crystal_body rejO A.reject t) : Block P (Key O K)).Keeps A.Good := by
    intro a t ht k k2 hk hk2 r hr
    match k, k2 with
    | .opt k, .opt k2 =>
      unfold crystal_body at hr
      dsimp only at hr
      split_ifs at hr with hp
      · simp at hr
      all_goals
        simp only [ne_eq, not_not] at hp
        rcases Finset.mem_union.1 hr with hr | hr
        · obtain ⟨e1, e2, rfl⟩ := mem_within.1 hr
          refine ⟨ht, ?_, ?_, e2⟩
          · first
            | exact hm.add _ _ _ hk.2.1 (hp ▸ hk2.2.1) e1
            | exact hm.sub _ _ _ hk.2.1 (hp ▸ hk2.2.1) e1
          · first
            | exact A.G.add_mem hk.2.2.1 hk2.2.2.1
            | exact A.G.sub_mem hk.2.2.1 hk2.2.2.1
        · first
          | simp at hr; done
          | obtain ⟨e1, e2, rfl⟩ := mem_within.1 hr
            exact ⟨ht, hm.sub _ _ _ (hp ▸ hk2.2.1) hk.2.1 e1, A.G.sub_mem hk2.2.2.1 hk.2.2.1, e2⟩
    | .opt _, .sig _ => simp [crystal_body] at hr
    | .sig _, _ => simp [crystal_body] at hr
  intro b hb
  simp only [crystal_ports, crystal_turn, List.mem_append, List.mem_cons, List.not_mem_nil, or_false] at hb
  rcases hb with (rfl | rfl | rfl | rfl) | rfl | rfl | rfl | rfl
  · exact chk h1.1
  · exact keeps_copy (h1.1.trans h2.2.symm)
  · exact prd h2.2
  · exact keeps_copy (h1.2.trans h2.1.symm)
  · exact chk h2.1
  · exact keeps_copy (h2.1.trans h1.2.symm)
  · exact prd h1.2
  · exact keeps_copy (h2.2.trans h1.1.symm)

theorem even_crystal {p q : Port P} :
    ∀ b ∈ (crystal_ports rejO A.reject p q : List (Block P (Key O K))), b.EvenB A.Good Key.conj := by
  have prd : ∀ {a t : P}, (Block.prod a a (crystal_body rejO A.reject t) : Block P (Key O K)).EvenB A.Good Key.conj := by
    intro a t k k2 _ _ r hr
    match k, k2 with
    | .opt ⟨a, b, c, d⟩, .opt ⟨a', b', c', d'⟩ =>
      simp only [conj_opt, OKey.conj]
      unfold crystal_body at hr ⊢
      dsimp only at hr ⊢
      by_cases hp : c = c'
      · rw [if_neg (not_not.2 hp)] at hr ⊢
        cases d <;> cases d' <;> simp only [Quantum.conj, reduceCtorEq, ne_eq, not_true_eq_false, not_false_eq_true, if_true, if_false,
          Finset.union_empty, Finset.mem_union, mem_within] at hr ⊢
        · obtain ⟨h1, h2, rfl⟩ := hr
          exact ⟨h1, h2, rfl⟩
        · rcases hr with ⟨h1, h2, rfl⟩ | ⟨h1, h2, rfl⟩
          · exact Or.inl ⟨h1, h2, rfl⟩
          · exact Or.inr ⟨h1, h2, rfl⟩
        · rcases hr with ⟨h1, h2, rfl⟩ | ⟨h1, h2, rfl⟩
          · exact Or.inl ⟨h1, h2, rfl⟩
          · exact Or.inr ⟨h1, h2, rfl⟩
        · obtain ⟨h1, h2, rfl⟩ := hr
          exact ⟨h1, h2, rfl⟩
      · rw [if_pos hp] at hr
        simp at hr
    | .opt _, .sig _ => simp [crystal_body] at hr
    | .sig _, _ => simp [crystal_body] at hr
  intro b hb
  simp only [crystal_ports, crystal_turn, List.mem_append, List.mem_cons, List.not_mem_nil, or_false] at hb
  rcases hb with (rfl | rfl | rfl | rfl) | rfl | rfl | rfl | rfl
  · trivial
  · exact even_copy
  · exact prd
  · exact even_copy
  · trivial
  · exact even_copy
  · exact prd
  · exact even_copy

variable {ch : Nat → Nat} {n : Nat} {st : St E P (Key O K)} {o : E} {po_Fr po_Bk : Port P}

theorem Kept.runsC (B : Kept S bs ini A) (he : bs o = crystal_ports rejO A.reject po_Fr po_Bk)
    (hown : ∀ p ∈ [po_Fr.i, po_Fr.o, po_Bk.i, po_Bk.o], S.port_owners.get? p = some o) :
    Runs S A.Good o (crystal_ports rejO A.reject po_Fr po_Bk) := by
  refine ⟨?_, fun b hb p hp => hown p ?_, ?_⟩
  · intro ssp h
    obtain ⟨ssp', h1, h2⟩ := B.handler o
    rw [h1] at h
    cases h
    rw [he] at h2
    exact h2
  · simp only [crystal_ports, crystal_turn, List.mem_append, List.mem_cons, List.not_mem_nil, or_false] at hb
    rcases hb with (rfl | rfl | rfl | rfl) | rfl | rfl | rfl | rfl <;>
    · simp only [copy, Block.reads, List.mem_cons, List.not_mem_nil, or_false, or_self] at hp
      simp [hp]
  · have h := B.keeps o
    rw [he] at h
    exact h

/-! ## C152 -/

/-- **C152, light.**  When the worklist ends, in whatever order it ran, the keys of an input are those of the output of the other side, and
with two keys of one polarization the key that they generate is among them if it is within the order limits: the sum of two lowering or two
raising fields, the difference of others. -/
theorem C152_light (B : Kept S bs ini A) (he : bs o = crystal_ports rejO A.reject po_Fr po_Bk)
    (hown : ∀ p ∈ [po_Fr.i, po_Fr.o, po_Bk.i, po_Bk.o], S.port_owners.get? p = some o) (hr : run S ch n = .ok (some st))
    {p q : Port P} (hs : (p = po_Fr ∧ q = po_Bk) ∨ (p = po_Bk ∧ q = po_Fr)) :
    (∀ k, Has st.port_cplgs p.i k ↔ Has st.port_cplgs q.o k) ∧
    ∀ k k2 : OKey O K, Has st.port_cplgs p.i (.opt k) → Has st.port_cplgs p.i (.opt k2) → k2.pol = k.pol →
      ∀ f g, (k2.q = k.q → f = k.opt + k2.opt ∧ g = k.cls + k2.cls) → (k2.q ≠ k.q → f = k.opt - k2.opt ∧ g = k.cls - k2.cls) →
        rejO f = false → A.reject g = false →
        Has st.port_cplgs p.i (.opt ⟨f, g, k.pol, k.q⟩) ∧ Has st.port_cplgs q.o (.opt ⟨f, g, k.pol, k.q⟩) := by
  have R := B.runsC he hown
  obtain ⟨ssp, hh, _⟩ := B.handler o
  have hcl := (B.within.final B.wf B.handled hr).1
  have hsv := R.served B.wf (by rw [hh]; rfl) hcl
  have hi : ∀ {x : P}, x ∈ [po_Fr.i, po_Fr.o, po_Bk.i, po_Bk.o] → S.Port x := by
    intro x hx
    unfold Sys.Port
    rw [hown x hx]
    rfl
  have hpi : p.i ∈ [po_Fr.i, po_Fr.o, po_Bk.i, po_Bk.o] := by rcases hs with ⟨rfl, -⟩ | ⟨rfl, -⟩ <;> simp
  have hqo : q.o ∈ [po_Fr.i, po_Fr.o, po_Bk.i, po_Bk.o] := by rcases hs with ⟨-, rfl⟩ | ⟨-, rfl⟩ <;> simp
  have c1 : copy p.i q.o ∈ (crystal_ports rejO A.reject po_Fr po_Bk : List (Block P (Key O K))) := by
    rcases hs with ⟨rfl, rfl⟩ | ⟨rfl, rfl⟩ <;> simp [crystal_ports, crystal_turn]
  have c2 : copy q.o p.i ∈ (crystal_ports rejO A.reject po_Fr po_Bk : List (Block P (Key O K))) := by
    rcases hs with ⟨rfl, rfl⟩ | ⟨rfl, rfl⟩ <;> simp [crystal_ports, crystal_turn]
  have c3 : .prod p.i p.i (crystal_body rejO A.reject q.o) ∈ (crystal_ports rejO A.reject po_Fr po_Bk : List (Block P (Key O K))) := by
    rcases hs with ⟨rfl, rfl⟩ | ⟨rfl, rfl⟩ <;> simp [crystal_ports, crystal_turn]
  refine ⟨fun k => ⟨fun h => hsv.copy c1 h (hi hqo), fun h => hsv.copy c2 h (hi hpi)⟩, ?_⟩
  intro k k2 hk hk2 hp f g h1 h2 hf hg
  have key : Has st.port_cplgs q.o (.opt ⟨f, g, k.pol, k.q⟩) := by
    have m1 : (q.o, Key.opt ⟨f, g, k.pol, k.q⟩) ∈ crystal_body rejO A.reject q.o (.opt k) (.opt k2) := by
      unfold crystal_body
      dsimp only
      rw [if_neg (by simp [hp])]
      refine Finset.mem_union_left _ ?_
      by_cases hq : k2.q = k.q
      · rw [if_pos hq]
        obtain ⟨rfl, rfl⟩ := h1 hq
        exact mem_within.2 ⟨hf, hg, rfl⟩
      · rw [if_neg hq]
        obtain ⟨rfl, rfl⟩ := h2 hq
        exact mem_within.2 ⟨hf, hg, rfl⟩
    have m2 : (q.o, Key.opt ⟨f, g, k.pol, k.q⟩) ∈ crystal_body rejO A.reject q.o (.opt k2) (.opt k) := by
      unfold crystal_body
      dsimp only
      rw [if_neg (by simp [hp])]
      by_cases hq : k2.q = k.q
      · refine Finset.mem_union_left _ ?_
        rw [if_pos hq.symm]
        obtain ⟨rfl, rfl⟩ := h1 hq
        rw [add_comm k.opt, add_comm k.cls] at *
        exact mem_within.2 ⟨hf, hg, by rw [hp, hq]⟩
      · refine Finset.mem_union_right _ ?_
        rw [if_pos (Ne.symm hq)]
        obtain ⟨rfl, rfl⟩ := h2 hq
        exact mem_within.2 ⟨hf, hg, by rw [hp]⟩
    refine hcl.rule o (by rw [hh]; rfl) _ q.o _ (R.prod_both B.wf c3 c3 (k1 := .opt k) (k2 := .opt k2) m1 m2) ?_ q.o (.refl _) (hi hqo)
    intro x hx
    simp only [List.mem_cons, List.not_mem_nil, or_false] at hx
    rcases hx with rfl | rfl
    · exact hk
    · exact hk2
  exact ⟨hsv.copy c2 key (hi hpi), key⟩

/-- **C152, equations.**  If the optical frequencies of the system are multiples of single wavelengths, the crystal sets up its equations without
an exception. -/
theorem C152_build (B : Kept S bs ini A) (hr : run S ch n = .ok (some st)) {env : Ode.CEnv P O K R}
    (hs : ∀ p k, k ∈ env.okeys p → Has st.port_cplgs p (.opt k)) (ho : ∀ f p, A.opts f p → ∃ m, env.orders f = [m])
    (e : Ode.Crystal P R) (pi po : P) : ∃ w, e.build env pi po = .ok w := by
  have pair : ∀ w k k2, ∃ w', e.pair env pi po w k k2 = .ok w' := by
    intro w k k2
    unfold Ode.Crystal.pair
    split_ifs with h1 h2
    · exact ⟨w, rfl⟩
    · obtain ⟨m, hm⟩ := ho _ _ ((B.within.final B.wf B.handled hr).2.1 po _ (hs _ _ h2)).2.1
      rw [hm]
      exact ⟨_, rfl⟩
    · exact ⟨w, rfl⟩
  have fold : ∀ (l : List (OKey O K × OKey O K)) w, ∃ w', l.foldlM (fun w T => e.pair env pi po w T.1 T.2) w = .ok w' := by
    intro l
    induction l with
    | nil => exact fun w => ⟨w, rfl⟩
    | cons T l ih =>
      intro w
      obtain ⟨w1, h1⟩ := pair w T.1 T.2
      obtain ⟨w2, h2⟩ := ih w1
      refine ⟨w2, ?_⟩
      rw [List.foldlM_cons, h1]
      exact h2
  rw [Ode.build_eq]
  exact fold _ _

/-- **C152, hypotheses of the equations.**  In systems whose elements treat conjugate keys alike, the keys that the crystal finds are as C99 to C102
ask for. -/
theorem C152_closed (B : KeptEven S bs ini A) (he : bs o = crystal_ports rejO A.reject po_Fr po_Bk)
    (hown : ∀ p ∈ [po_Fr.i, po_Fr.o, po_Bk.i, po_Bk.o], S.port_owners.get? p = some o) (hr : run S ch n = .ok (some st))
    {p q : Port P} (hs : (p = po_Fr ∧ q = po_Bk) ∨ (p = po_Bk ∧ q = po_Fr)) {env : Ode.CEnv P O K R}
    (hk : ∀ p k, k ∈ env.okeys p ↔ Has st.port_cplgs p (.opt k)) (hn : ∀ p, (env.okeys p).Nodup)
    (ho : ∀ f p, A.opts f p → ∃ m, env.orders f = [m]) : Ode.Closed env p.i q.o where
  nodup := hn _
  same := fun k => by rw [hk, hk]; exact ((C152_light B.toKept he hown hr hs).1 _).symm
  conj := fun k h => (hk _ _).2 ((C144_conjugate B hr p.i (.opt k)).2 ((hk _ _).1 h))
  single := by
    intro k h
    obtain ⟨m, hm⟩ := ho _ _ ((B.within.final B.wf B.handled hr).2.1 q.o _ ((hk _ _).1 h)).2.1
    rw [hm]
    rfl

/-- **C152, composite wavelengths, refuted.**  What the crystal asks for it cannot always set up: with light of two wavelengths whose sum is within the
order limits the sum is at the output, and setting up the equations raises an exception. -/
theorem C152_composite_refuted (B : Kept S bs ini A) (he : bs o = crystal_ports rejO A.reject po_Fr po_Bk)
    (hown : ∀ p ∈ [po_Fr.i, po_Fr.o, po_Bk.i, po_Bk.o], S.port_owners.get? p = some o) (hr : run S ch n = .ok (some st))
    {p q : Port P} (hs : (p = po_Fr ∧ q = po_Bk) ∨ (p = po_Bk ∧ q = po_Fr)) {env : Ode.CEnv P O K R}
    (hk : ∀ p k, k ∈ env.okeys p ↔ Has st.port_cplgs p (.opt k)) {k k2 : OKey O K} (h1 : Has st.port_cplgs p.i (.opt k))
    (h2 : Has st.port_cplgs p.i (.opt k2)) (hp : k2.pol = k.pol) (hq : k2.q = k.q) (hf : rejO (k.opt + k2.opt) = false)
    (hg : A.reject (k.cls + k2.cls) = false) (ho : 1 < (env.orders (k.opt + k2.opt)).length) (e : Ode.Crystal P R) :
    ∃ x, e.build env p.i q.o = .error x := by
  have hkey := ((C152_light B he hown hr hs).2 k k2 h1 h2 hp _ _ (fun _ => ⟨rfl, rfl⟩) (fun h => absurd hq h) hf hg).2
  have pair : ∀ w, ∃ x, e.pair env p.i q.o w k k2 = .error x := by
    intro w
    have hm : Ode.kto k k2 ∈ env.okeys q.o := by
      rw [Ode.kto_of_eq hq]
      exact (hk _ _).2 hkey
    unfold Ode.Crystal.pair
    rw [if_neg (by simp [hp]), if_pos hm]
    rw [show (Ode.kto k k2).opt = k.opt + k2.opt by rw [Ode.kto_of_eq hq]]
    match hh : env.orders (k.opt + k2.opt) with
    | [] => rw [hh] at ho; simp at ho
    | [_] => rw [hh] at ho; simp at ho
    | _ :: _ :: _ => exact ⟨_, rfl⟩
  have fold : ∀ (l : List (OKey O K × OKey O K)), (k, k2) ∈ l →
      ∀ w, ∃ x, l.foldlM (fun w T => e.pair env p.i q.o w T.1 T.2) w = .error x := by
    intro l
    induction l with
    | nil => intro h; simp at h
    | cons T l ih =>
      intro h w
      rw [List.foldlM_cons]
      cases hT : e.pair env p.i q.o w T.1 T.2 with
      | error x => exact ⟨x, rfl⟩
      | ok w1 =>
        rcases List.mem_cons.1 h with rfl | h
        · obtain ⟨x, hx⟩ := pair w
          rw [hx] at hT
          cases hT
        · exact ih h w1
  rw [Ode.build_eq]
  exact fold _ (Ode.mem_pairs.2 ⟨(hk _ _).2 h1, (hk _ _).2 h2⟩) _

end

/-! ## Infrared light that makes green light -/

/-- Optical frequencies: multiples `0, 1, 2` of one wavelength, modulo 5; the limits are 1 and 2. -/
def rejO5 (f : Fin 5) : Bool := decide (f ≠ 1 ∧ f ≠ 2)

def keysO : List (Key (Fin 5) (Fin 3)) :=
  (List.finRange 5).flatMap (fun o => (List.finRange 3).flatMap (fun f => [.opt ⟨o, f, .S, .lower⟩, .opt ⟨o, f, .S, .raise⟩,
    .opt ⟨o, f, .P, .lower⟩, .opt ⟨o, f, .P, .raise⟩])) ++ (List.finRange 3).map .sig

theorem mem_keysO (k : Key (Fin 5) (Fin 3)) : k ∈ keysO := by
  match k with
  | .sig f => exact List.mem_append_right _ (List.mem_map.2 ⟨f, List.mem_finRange _, rfl⟩)
  | .opt ⟨o, f, p, q⟩ =>
    refine List.mem_append_left _ (List.mem_flatMap.2 ⟨o, List.mem_finRange _, List.mem_flatMap.2 ⟨f, List.mem_finRange _, ?_⟩⟩)
    cases p <;> cases q <;> simp

def enumO (n : Nat) : List (Fin n × Key (Fin 5) (Fin 3)) := (List.finRange n).flatMap (fun p => keysO.map (fun k => (p, k)))

theorem mem_enumO {n : Nat} (r : Fin n × Key (Fin 5) (Fin 3)) : r ∈ enumO n :=
  List.mem_flatMap.2 ⟨r.1, List.mem_finRange _, List.mem_map.2 ⟨r.2, mem_keysO _, rfl⟩⟩

/-- Ports: laser 0/1, crystal 2/3 and 4/5, vacuum 6/7. -/
def crLaser : FElem (Fin 8) (Fin 5) (Fin 3) ℚ ℚ := .optical (.laser ⟨⟨0, 1⟩, 1, 0, .S, 1, 0⟩)

def crBlocks : Fin 3 → List (Block (Fin 8) (Key (Fin 5) (Fin 3)))
  | 0 => crLaser.ports (fun _ => false) (fun _ => 0)
  | 1 => crystal_ports rejO5 (fun _ => false) ⟨2, 3⟩ ⟨4, 5⟩
  | 2 => ends ⟨6, 7⟩

def crInitial : Fin 3 → List (Fin 8 × Key (Fin 5) (Fin 3))
  | 0 => crLaser.initial
  | _ => []

def crOwner : Fin 8 → Fin 3 := ![0, 0, 1, 1, 1, 1, 2, 2]

def crRule : Rule (Fin 8) (Fin 5) (Fin 3) ℚ where
  reject _ := false
  center _ := 0
  kind _ := some true
  opts o _ := rejO5 o = false
  G := ⊤

def crFill : Sys (Fin 3) (Fin 8) (Key (Fin 5) (Fin 3)) where
  elements := [0, 1, 2]
  port_owners := (List.finRange 8).map (fun p => (p, crOwner p))
  port_owners_virtual := []
  owners_ports := (List.finRange 3).map (fun e => (e, (List.finRange 8).filter (fun p => crOwner p = e)))
  owners_ports_virtual := [(0, []), (1, []), (2, [])]
  bond_pairs := [(1, [2]), (3, [0]), (5, [6]), (7, [4])]
  initial e := some (crInitial e)
  handler e := some (listed (enumO 8) (crBlocks e))

theorem crFill_kept : Kept crFill crBlocks crInitial crRule where
  wf := by constructor <;> (try unfold Sys.Own) <;> (try unfold Sys.Port) <;> decide +kernel
  handler := fun o => ⟨_, rfl, lists_listed mem_enumO _⟩
  initial := fun o => ⟨_, rfl, fun r => Iff.rfl⟩
  own := by unfold Sys.Own; decide +kernel
  keeps := by
    intro o
    have hl : ∀ p : Port (Fin 8), crRule.Light p := fun _ => ⟨rfl, rfl⟩
    match o with
    | 0 => exact keeps_ports (A := crRule) (e := crLaser) ⟨hl _, (rfl : rejO5 1 = false), AddSubgroup.mem_top _, rfl⟩
    | 1 => exact keeps_crystal (A := crRule) ⟨fun _ _ _ _ _ h => h, fun _ _ _ _ _ h => h⟩ (hl _) (hl _)
    | 2 =>
      intro b hb
      simp only [crBlocks, ends, List.mem_cons, List.not_mem_nil, or_false] at hb
      rcases hb with rfl | rfl <;> exact keeps_copy rfl
  starts := by
    intro o
    match o with
    | 0 => exact keeps_initial (A := crRule) (e := crLaser) ⟨⟨rfl, rfl⟩, (rfl : rejO5 1 = false), AddSubgroup.mem_top _, rfl⟩
    | 1 | 2 => intro r hr; simp [crInitial] at hr
  bonds := fun _ _ _ _ => rfl

theorem crRule_odd : crRule.Odd := ⟨fun _ => rfl, fun _ => by simp [crRule]⟩

theorem crFill_even : KeptEven crFill crBlocks crInitial crRule where
  toKept := crFill_kept
  odd := crRule_odd
  even := by
    intro o
    match o with
    | 0 => exact even_ports (A := crRule) (e := crLaser) crRule_odd trivial
    | 1 => exact even_crystal (A := crRule)
    | 2 =>
      intro b hb
      simp only [crBlocks, ends, List.mem_cons, List.not_mem_nil, or_false] at hb
      rcases hb with rfl | rfl <;> exact even_copy
  starts_even := by
    intro o
    match o with
    | 0 => exact even_initial (e := crLaser)
    | 1 | 2 => intro r hr; simp [crInitial] at hr

/-- The hypotheses are met together, and the result is not trivial: the light of the laser makes light of twice its frequency. -/
example : KeptEven crFill crBlocks crInitial crRule ∧ crBlocks 1 = crystal_ports rejO5 crRule.reject ⟨2, 3⟩ ⟨4, 5⟩ ∧
    (∀ p ∈ [(2 : Fin 8), 3, 4, 5], crFill.port_owners.get? p = some 1) ∧
    (∃ s, outcome crFill (fun _ => 0) 60 5 = some s ∧ .opt ⟨2, 0, .S, .lower⟩ ∈ s ∧ .opt ⟨1, 0, .S, .lower⟩ ∈ s) ∧
    ∀ (f : Fin 5) p, crRule.opts f p → ∃ m : ℤ, [(f.val : ℤ)] = [m] := by
  refine ⟨crFill_even, rfl, by decide, ?_, fun f _ _ => ⟨f.val, rfl⟩⟩
  have h : ((outcome crFill (fun _ => 0) 60 5).map (fun s => decide (Key.opt ⟨2, 0, .S, .lower⟩ ∈ s ∧
      Key.opt ⟨1, 0, .S, .lower⟩ ∈ s))) = some true := by decide +kernel
  rw [Option.map_eq_some_iff] at h
  obtain ⟨s, h1, h2⟩ := h
  exact ⟨s, h1, by simpa using h2⟩

/-! ## Light of two wavelengths -/

/-- Multiples of two wavelengths, modulo 3; the limit of both is 1. -/
def rejO2 (f : Fin 3 × Fin 3) : Bool := decide (f = 0 ∨ f.1 = 2 ∨ f.2 = 2)

/-- `F_dict`: the multiples that are not 0 -/
def orders2 (f : Fin 3 × Fin 3) : List ℤ := ([f.1, f.2].filter (fun x => x ≠ 0)).map (fun x => (x.val : ℤ))

def keys2 : List (Key (Fin 3 × Fin 3) (Fin 1)) :=
  ((List.finRange 3).flatMap (fun a => (List.finRange 3).map (fun b => (a, b)))).flatMap (fun o => [.opt ⟨o, 0, .S, .lower⟩,
    .opt ⟨o, 0, .S, .raise⟩, .opt ⟨o, 0, .P, .lower⟩, .opt ⟨o, 0, .P, .raise⟩]) ++ [.sig 0]

theorem mem_keys2 (k : Key (Fin 3 × Fin 3) (Fin 1)) : k ∈ keys2 := by
  match k with
  | .sig f => exact List.mem_append_right _ (List.mem_singleton.2 (by rw [Subsingleton.elim f 0]))
  | .opt ⟨(a, b), f, p, q⟩ =>
    refine List.mem_append_left _ (List.mem_flatMap.2 ⟨(a, b), List.mem_flatMap.2 ⟨a, List.mem_finRange _,
      List.mem_map.2 ⟨b, List.mem_finRange _, rfl⟩⟩, ?_⟩)
    rw [Subsingleton.elim f 0]
    cases p <;> cases q <;> simp

def enum2 (n : Nat) : List (Fin n × Key (Fin 3 × Fin 3) (Fin 1)) :=
  (List.finRange n).flatMap (fun p => keys2.map (fun k => (p, k)))

theorem mem_enum2 {n : Nat} (r : Fin n × Key (Fin 3 × Fin 3) (Fin 1)) : r ∈ enum2 n :=
  List.mem_flatMap.2 ⟨r.1, List.mem_finRange _, List.mem_map.2 ⟨r.2, mem_keys2 _, rfl⟩⟩

/-- Ports: lasers 0/1 and 6/7, crystal 2/3 and 4/5. -/
def c2Laser : Bool → FElem (Fin 8) (Fin 3 × Fin 3) (Fin 1) ℚ ℚ
  | false => .optical (.laser ⟨⟨0, 1⟩, 1, 0, .S, (1, 0), 0⟩)
  | true => .optical (.laser ⟨⟨6, 7⟩, 1, 0, .S, (0, 1), 0⟩)

def c2Blocks : Fin 3 → List (Block (Fin 8) (Key (Fin 3 × Fin 3) (Fin 1)))
  | 0 => (c2Laser false).ports (fun _ => false) (fun _ => 0)
  | 1 => crystal_ports rejO2 (fun _ => false) ⟨2, 3⟩ ⟨4, 5⟩
  | 2 => (c2Laser true).ports (fun _ => false) (fun _ => 0)

def c2Initial : Fin 3 → List (Fin 8 × Key (Fin 3 × Fin 3) (Fin 1))
  | 0 => (c2Laser false).initial
  | 1 => []
  | 2 => (c2Laser true).initial

def c2Rule : Rule (Fin 8) (Fin 3 × Fin 3) (Fin 1) ℚ where
  reject _ := false
  center _ := 0
  kind _ := some true
  opts o _ := rejO2 o = false
  G := ⊤

def c2Fill : Sys (Fin 3) (Fin 8) (Key (Fin 3 × Fin 3) (Fin 1)) where
  elements := [0, 1, 2]
  port_owners := (List.finRange 8).map (fun p => (p, crOwner p))
  port_owners_virtual := []
  owners_ports := (List.finRange 3).map (fun e => (e, (List.finRange 8).filter (fun p => crOwner p = e)))
  owners_ports_virtual := [(0, []), (1, []), (2, [])]
  bond_pairs := [(1, [2]), (3, [0]), (5, [6]), (7, [4])]
  initial e := some (c2Initial e)
  handler e := some (listed (enum2 8) (c2Blocks e))

theorem c2Fill_kept : Kept c2Fill c2Blocks c2Initial c2Rule where
  wf := by constructor <;> (try unfold Sys.Own) <;> (try unfold Sys.Port) <;> decide +kernel
  handler := fun o => ⟨_, rfl, lists_listed mem_enum2 _⟩
  initial := fun o => ⟨_, rfl, fun r => Iff.rfl⟩
  own := by unfold Sys.Own; decide +kernel
  keeps := by
    intro o
    have hl : ∀ p : Port (Fin 8), c2Rule.Light p := fun _ => ⟨rfl, rfl⟩
    match o with
    | 0 => exact keeps_ports (A := c2Rule) (e := c2Laser false) ⟨hl _, (rfl : rejO2 (1, 0) = false), AddSubgroup.mem_top _, rfl⟩
    | 1 => exact keeps_crystal (A := c2Rule) ⟨fun _ _ _ _ _ h => h, fun _ _ _ _ _ h => h⟩ (hl _) (hl _)
    | 2 => exact keeps_ports (A := c2Rule) (e := c2Laser true) ⟨hl _, (rfl : rejO2 (0, 1) = false), AddSubgroup.mem_top _, rfl⟩
  starts := by
    intro o
    match o with
    | 0 => exact keeps_initial (A := c2Rule) (e := c2Laser false) ⟨⟨rfl, rfl⟩, (rfl : rejO2 (1, 0) = false), AddSubgroup.mem_top _, rfl⟩
    | 1 => intro r hr; simp [c2Initial] at hr
    | 2 => exact keeps_initial (A := c2Rule) (e := c2Laser true) ⟨⟨rfl, rfl⟩, (rfl : rejO2 (0, 1) = false), AddSubgroup.mem_top _, rfl⟩
  bonds := fun _ _ _ _ => rfl

/-- The hypotheses of `C152_composite_refuted` are met together. -/
example : Kept c2Fill c2Blocks c2Initial c2Rule ∧ c2Blocks 1 = crystal_ports rejO2 c2Rule.reject ⟨2, 3⟩ ⟨4, 5⟩ ∧
    (∀ p ∈ [(2 : Fin 8), 3, 4, 5], c2Fill.port_owners.get? p = some 1) ∧ rejO2 ((1, 0) + (0, 1)) = false ∧
    1 < (orders2 ((1, 0) + (0, 1))).length ∧
    ∃ s, outcome c2Fill (fun _ => 0) 60 2 = some s ∧ .opt ⟨(1, 0), 0, .S, .lower⟩ ∈ s ∧ .opt ⟨(0, 1), 0, .S, .lower⟩ ∈ s := by
  refine ⟨c2Fill_kept, rfl, by decide, rfl, by decide, ?_⟩
  have h : ((outcome c2Fill (fun _ => 0) 60 2).map (fun s => decide (Key.opt ⟨(1, 0), 0, .S, .lower⟩ ∈ s ∧
      Key.opt ⟨(0, 1), 0, .S, .lower⟩ ∈ s))) = some true := by decide +kernel
  rw [Option.map_eq_some_iff] at h
  obtain ⟨s, h1, h2⟩ := h
  exact ⟨s, h1, by simpa using h2⟩

end Fill
