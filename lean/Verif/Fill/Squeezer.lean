import Verif.Fill.AomFull
import Verif.Optics.Squeezer

/-!
# The keys that squeezers ask for (C151)

Source: `/repo/phasor/optics/EZSqz.py` l.199-243; the couplings are those of `Verif/Optics/Squeezer.lean`.
-/

set_option linter.unusedSectionVars false

namespace Fill
open Py Ports Optics Circuit Inject

variable {E P O K V F : Type} [DecidableEq E] [DecidableEq P] [DecidableEq O] [DecidableEq K] [AddCommGroup K]
  [Field V] [LinearOrder V] [IsStrictOrderedRing V] [Field F] [StarRing F] [DecidableEq F]

/-! ## model -/

/-- The bodies l.216-229 and l.231-242: the key `k` at a port asks for itself at the ports `t` and `l`, and for its reflection at `t`. -/
def sqz_body (e : EZSqz P O K F) (t l : P) : Key O K → Finset (P × Key O K)
  | .opt k => {(t, .opt k), (l, .opt k)} ∪ (if k.opt ≠ e.okey then ∅ else {(t, .opt (e.reflect k))})
  | .sig _ => ∅

/-- One turn of the loop l.214-242; a key without an optical frequency is a KeyError at l.219 or l.234. -/
def sqz_turn (e : EZSqz P O K F) (port tport lport : Port P) : List (Block P (Key O K)) :=
  [.check port.i (fun k => match k with | .opt _ => true | .sig _ => false) .keyError,
    .each port.i (sqz_body e tport.o lport.o),
    .check port.o (fun k => match k with | .opt _ => true | .sig _ => false) .keyError,
    .each port.o (sqz_body e tport.i lport.i)]

/-- `EZSqz.system_setup_ports`, l.199-243. -/
def sqz_ports (e : EZSqz P O K F) : List (Block P (Key O K)) :=
  sqz_turn e e.po_Fr e.po_Bk e.LFr ++ sqz_turn e e.po_Bk e.po_Fr e.LBk

/-! ## the squeezer keeps to the rules -/

section
variable {S : Sys E P (Key O K)} {bs : E → List (Block P (Key O K))} {ini : E → List (P × Key O K)} {A : Rule P O K V}

theorem mem_body {e : EZSqz P O K F} {t l : P} {k : OKey O K} {r : P × Key O K} :
    r ∈ sqz_body e t l (.opt k) ↔ r = (t, .opt k) ∨ r = (l, .opt k) ∨ (k.opt = e.okey ∧ r = (t, .opt (e.reflect k))) := by
  unfold sqz_body
  dsimp only
  rw [Finset.mem_union, Finset.mem_insert, Finset.mem_singleton, or_assoc]
  by_cases h : k.opt = e.okey
  · rw [if_neg (by simpa using h), Finset.mem_singleton]
    simp [h]
  · rw [if_pos h]
    simp [h]

theorem keeps_body {e : EZSqz P O K F} {a t l : P} (ht : A.kind t = some true) (hl : A.kind l = some true)
    (hc : ∀ f, A.Freq f → A.Freq (e.ckey + e.ckey - f)) : (Block.each a (sqz_body e t l) : Block P (Key O K)).Keeps A.Good := by
  intro k hk r hr
  cases k with
  | sig _ => simp [sqz_body] at hr
  | opt k =>
    rcases mem_body.1 hr with rfl | rfl | ⟨h, rfl⟩
    · exact ⟨ht, hk.2⟩
    · exact ⟨hl, hk.2⟩
    · exact ⟨ht, hk.2.1, hc _ hk.2.2⟩

/-- A squeezer keeps to the rules if its center reflects the frequencies of the system to each other. -/
theorem keeps_sqz {e : EZSqz P O K F} (h1 : A.Light e.po_Fr) (h2 : A.Light e.po_Bk) (h3 : A.Light e.LFr) (h4 : A.Light e.LBk)
    (hc : ∀ f, A.Freq f → A.Freq (e.ckey + e.ckey - f)) : ∀ b ∈ (sqz_ports e : List (Block P (Key O K))), b.Keeps A.Good := by
  have chk : ∀ {p : P}, A.kind p = some true → (Block.check p (fun k : Key O K => match k with | .opt _ => true | .sig _ => false)
      .keyError : Block P (Key O K)).Keeps A.Good := by
    intro p hp k hk
    cases k with
    | opt k => rfl
    | sig f => exact absurd (hp.symm.trans hk.1) (by simp)
  intro b hb
  simp only [sqz_ports, sqz_turn, List.mem_append, List.mem_cons, List.not_mem_nil, or_false] at hb
  rcases hb with (rfl | rfl | rfl | rfl) | rfl | rfl | rfl | rfl
  · exact chk h1.1
  · exact keeps_body h2.2 h3.2 hc
  · exact chk h1.2
  · exact keeps_body h2.1 h3.1 hc
  · exact chk h2.1
  · exact keeps_body h1.2 h4.2 hc
  · exact chk h2.2
  · exact keeps_body h1.1 h4.1 hc

/-- The ports of a squeezer. -/
def sqz_all (e : EZSqz P O K F) : List P :=
  [e.po_Fr.i, e.po_Fr.o, e.po_Bk.i, e.po_Bk.o, e.LFr.i, e.LFr.o, e.LBk.i, e.LBk.o]

variable {ch : Nat → Nat} {n : Nat} {st : St E P (Key O K)} {o : E} {e : EZSqz P O K F}

theorem Kept.servedZ (B : Kept S bs ini A) (he : bs o = sqz_ports e)
    (hown : ∀ p ∈ sqz_all e, S.port_owners.get? p = some o) (hr : run S ch n = .ok (some st)) :
    Served S.Port (sqz_ports e) (fun p k => Has st.port_cplgs p k) := by
  have R : Runs S A.Good o (sqz_ports e) := by
    refine ⟨?_, fun b hb p hp => hown p ?_, ?_⟩
    · intro ssp h
      obtain ⟨ssp', h1, h2⟩ := B.handler o
      rw [h1] at h
      cases h
      rw [he] at h2
      exact h2
    · simp only [sqz_ports, sqz_turn, List.mem_append, List.mem_cons, List.not_mem_nil, or_false] at hb
      rcases hb with (rfl | rfl | rfl | rfl) | rfl | rfl | rfl | rfl <;>
      · simp only [Block.reads, List.mem_cons, List.not_mem_nil, or_false] at hp
        simp [sqz_all, hp]
    · have h := B.keeps o
      rw [he] at h
      exact h
  obtain ⟨ssp, hs, _⟩ := B.handler o
  exact R.served B.wf (by rw [hs]; rfl) (B.within.final B.wf B.handled hr).1

theorem sqz_isPort (hown : ∀ p ∈ sqz_all e, S.port_owners.get? p = some o) {p : P} (hp : p ∈ sqz_all e) : S.Port p := by
  unfold Sys.Port
  rw [hown p hp]
  rfl

/-! ## C151 -/

/-- **C151, light.**  When the worklist ends, the light at an input is found at the output of the other side with its reflection, and at the
loss port; the light that makes the light at an output is found at the input of the other side. -/
theorem C151_light (B : Kept S bs ini A) (he : bs o = sqz_ports e) (hown : ∀ p ∈ sqz_all e, S.port_owners.get? p = some o)
    (hr : run S ch n = .ok (some st)) {p q l : Port P} (hs : (p = e.po_Fr ∧ q = e.po_Bk ∧ l = e.LFr) ∨ (p = e.po_Bk ∧ q = e.po_Fr ∧ l = e.LBk))
    {k : OKey O K} :
    (Has st.port_cplgs p.i (.opt k) → Has st.port_cplgs q.o (.opt k) ∧ Has st.port_cplgs l.o (.opt k) ∧
      (k.opt = e.okey → Has st.port_cplgs q.o (.opt (e.reflect k)))) ∧
    (Has st.port_cplgs p.o (.opt k) → Has st.port_cplgs q.i (.opt k) ∧ Has st.port_cplgs l.i (.opt k) ∧
      (k.opt = e.okey → Has st.port_cplgs q.i (.opt (e.reflect k)))) := by
  have hsv := B.servedZ he hown hr
  have hi : ∀ {x : P}, x ∈ sqz_all e → S.Port x := sqz_isPort hown
  have go : ∀ {a t m : P}, Block.each a (sqz_body e t m) ∈ sqz_ports e → t ∈ sqz_all e → m ∈ sqz_all e →
      Has st.port_cplgs a (.opt k) → Has st.port_cplgs t (.opt k) ∧ Has st.port_cplgs m (.opt k) ∧
      (k.opt = e.okey → Has st.port_cplgs t (.opt (e.reflect k))) := by
    intro a t m hb ht hm hk
    exact ⟨hsv.each a _ hb _ hk (t, .opt k) (mem_body.2 (.inl rfl)) (hi ht),
      hsv.each a _ hb _ hk (m, .opt k) (mem_body.2 (.inr (.inl rfl))) (hi hm),
      fun h => hsv.each a _ hb _ hk (t, .opt (e.reflect k)) (mem_body.2 (.inr (.inr ⟨h, rfl⟩))) (hi ht)⟩
  rcases hs with ⟨rfl, rfl, rfl⟩ | ⟨rfl, rfl, rfl⟩ <;>
  exact ⟨go (by simp [sqz_ports, sqz_turn]) (by simp [sqz_all]) (by simp [sqz_all]),
    go (by simp [sqz_ports, sqz_turn]) (by simp [sqz_all]) (by simp [sqz_all])⟩

/-- **C151, nodes.**  If the keys of the inputs of the squeezer are keys of the outputs beside them, as they are where its ports are terminated,
every node that its couplings join is a node of the system. -/
theorem C151_nodes_partial (B : Kept S bs ini A) (he : bs o = sqz_ports e) (hown : ∀ p ∈ sqz_all e, S.port_owners.get? p = some o)
    (hr : run S ch n = .ok (some st)) {env : OEnv P O K F} (hs : Shows A (fun p k => Has st.port_cplgs p k) env)
    (hio : ∀ p ∈ [e.po_Fr, e.po_Bk, e.LFr, e.LBk], ∀ k, Has st.port_cplgs p.i k → Has st.port_cplgs p.o k) :
    ∀ c ∈ e.setup env, ∃ a b v, c = .edge a b v ∧ Has st.port_cplgs a.1 a.2 ∧ Has st.port_cplgs b.1 b.2 := by
  have side : ∀ {p q l : Port P}, ((p = e.po_Fr ∧ q = e.po_Bk ∧ l = e.LFr) ∨ (p = e.po_Bk ∧ q = e.po_Fr ∧ l = e.LBk)) →
      ∀ c ∈ e.port_setup env p q l, ∃ a b v, c = .edge a b v ∧ Has st.port_cplgs a.1 a.2 ∧ Has st.port_cplgs b.1 b.2 := by
    intro p q l hpq c hc
    obtain ⟨k, hk, hc⟩ := List.mem_flatMap.1 hc
    replace hk := hs.okeys _ _ hk
    have hp : p ∈ [e.po_Fr, e.po_Bk, e.LFr, e.LBk] := by rcases hpq with ⟨rfl, -⟩ | ⟨rfl, -⟩ <;> simp
    have hL := C151_light B he hown hr hpq (k := k)
    obtain ⟨a1, a2, a3⟩ := hL.1 hk
    obtain ⟨b1, b2, b3⟩ := hL.2 (hio p hp _ hk)
    split_ifs at hc with h
    · simp at hc
    simp only [ne_eq, not_not] at h
    simp only [List.mem_cons, List.not_mem_nil, or_false] at hc
    rcases hc with rfl | rfl | rfl | rfl
    · exact ⟨_, _, _, rfl, hk, a1⟩
    · exact ⟨_, _, _, rfl, hk, a3 h⟩
    · exact ⟨_, _, _, rfl, hk, a2⟩
    · exact ⟨_, _, _, rfl, b2, hio p hp _ hk⟩
  have loss : ∀ {l : Port P}, l ∈ [e.po_Fr, e.po_Bk, e.LFr, e.LBk] → ∀ c ∈ e.loss_setup env l, ∃ a b v, c = .edge a b v ∧
      Has st.port_cplgs a.1 a.2 ∧ Has st.port_cplgs b.1 b.2 := by
    intro l hl c hc
    obtain ⟨k, hk, rfl⟩ := List.mem_map.1 hc
    replace hk := hs.okeys _ _ hk
    exact ⟨_, _, _, rfl, hk, hio l hl _ hk⟩
  intro c hc
  rcases List.mem_append.1 hc with hc | hc <;> rcases List.mem_append.1 hc with hc | hc
  · exact side (.inl ⟨rfl, rfl, rfl⟩) c hc
  · exact side (.inr ⟨rfl, rfl, rfl⟩) c hc
  · exact loss (by simp) c hc
  · exact loss (by simp) c hc

/-- The vacuum of the loss reaches the light at the back only at the keys of light that comes in at the back. -/
theorem sqz_into_back (hp : [e.po_Fr.o, e.po_Bk.o, e.LFr.o, e.LBk.o].Nodup) {env : OEnv P O K F} {k : OKey O K}
    (hk : k ∉ env.okeys e.po_Bk.i) : ∀ c ∈ e.setup env, c.target = on e.po_Bk.o k → ∃ j v, c = .edge (on e.po_Fr.i j) (on e.po_Bk.o k) v := by
  simp only [List.nodup_cons, List.mem_cons, List.not_mem_nil, or_false, not_or] at hp
  obtain ⟨⟨n1, n2, n3⟩, ⟨n4, n5⟩, n6, -⟩ := hp
  intro c hc ht
  rcases List.mem_append.1 hc with hc | hc <;> rcases List.mem_append.1 hc with hc | hc
  · obtain ⟨j, hj, hc⟩ := List.mem_flatMap.1 hc
    split_ifs at hc with h
    · simp at hc
    simp only [List.mem_cons, List.not_mem_nil, or_false] at hc
    rcases hc with rfl | rfl | rfl | rfl
    · exact ⟨j, _, congrArg (fun t => Coupling.edge _ t _) ht⟩
    · exact ⟨j, _, congrArg (fun t => Coupling.edge _ t _) ht⟩
    · exact absurd (congrArg Prod.fst ht) (Ne.symm n4)
    · exact absurd (congrArg Prod.fst ht) n1
  · obtain ⟨j, hj, hc⟩ := List.mem_flatMap.1 hc
    split_ifs at hc with h
    · simp at hc
    simp only [List.mem_cons, List.not_mem_nil, or_false] at hc
    rcases hc with rfl | rfl | rfl | rfl
    · exact absurd (congrArg Prod.fst ht) n1
    · exact absurd (congrArg Prod.fst ht) n1
    · exact absurd (congrArg Prod.fst ht) (Ne.symm n5)
    · have : (Key.opt j : Key O K) = .opt k := congrArg Prod.snd ht
      injection this with this
      subst this
      exact absurd hj hk
  · obtain ⟨j, hj, rfl⟩ := List.mem_map.1 hc
    exact absurd (congrArg Prod.fst ht) (Ne.symm n4)
  · obtain ⟨j, hj, rfl⟩ := List.mem_map.1 hc
    exact absurd (congrArg Prod.fst ht) (Ne.symm n5)

end

/-! ## A squeezer between a circulator and a photodiode -/

/-- Ports: laser 0/1, squeezer front 2/3, back 4/5, loss 6/7 and 8/9, photodiode 10/11 with 12 and 13, vacuum 14/15 at the loss port of the
back and 16/17 at that of the front; the light of the laser comes through a circulator 18/19, 20/21, 22/23, at whose third port is a
photodiode 24/25 with 26 and 27. -/
def sq : EZSqz (Fin 28) Unit (Fin 5) ℚ := ⟨⟨2, 3⟩, ⟨4, 5⟩, ⟨6, 7⟩, ⟨8, 9⟩, (), 0, 2, 1, 1 / 2, 0⟩

def sqLaser : FElem (Fin 28) Unit (Fin 5) ℚ ℚ := .optical (.laser ⟨⟨0, 1⟩, 1, 0, .S, (), 1⟩)

def sqPD : FElem (Fin 28) Unit (Fin 5) ℚ ℚ := .optical (.pd ⟨10, 11⟩ 12 13)

def sqCirc : FElem (Fin 28) Unit (Fin 5) ℚ ℚ := .optical (.circulator [⟨18, 19⟩, ⟨20, 21⟩, ⟨22, 23⟩])

def sqPD2 : FElem (Fin 28) Unit (Fin 5) ℚ ℚ := .optical (.pd ⟨24, 25⟩ 26 27)

def sqBlocks : Fin 7 → List (Block (Fin 28) (Key Unit (Fin 5)))
  | 0 => sqLaser.ports reject5 moCenter
  | 1 => sqz_ports sq
  | 2 => sqPD.ports reject5 moCenter
  | 3 => ends ⟨14, 15⟩
  | 4 => ends ⟨16, 17⟩
  | 5 => sqCirc.ports reject5 moCenter
  | 6 => sqPD2.ports reject5 moCenter

def sqInitial : Fin 7 → List (Fin 28 × Key Unit (Fin 5))
  | 0 => sqLaser.initial
  | _ => []

def sqOwner : Fin 28 → Fin 7 := ![0, 0, 1, 1, 1, 1, 1, 1, 1, 1, 2, 2, 2, 2, 3, 3, 4, 4, 5, 5, 5, 5, 5, 5, 6, 6, 6, 6]

def sqRule : Rule (Fin 28) Unit (Fin 5) ℚ where
  reject := reject5
  center := moCenter
  kind p := if p = 12 ∨ p = 26 then none else some (decide (p ≠ 13 ∧ p ≠ 27))
  opts _ p := p = .S
  G := ⊤

def sqFill : Sys (Fin 7) (Fin 28) (Key Unit (Fin 5)) where
  elements := [0, 1, 2, 3, 4, 5, 6]
  port_owners := (List.finRange 28).map (fun p => (p, sqOwner p))
  port_owners_virtual := []
  owners_ports := (List.finRange 7).map (fun e => (e, (List.finRange 28).filter (fun p => sqOwner p = e)))
  owners_ports_virtual := [(0, []), (1, []), (2, []), (3, []), (4, []), (5, []), (6, [])]
  bond_pairs := [(1, [18]), (19, [0]), (21, [2]), (3, [20]), (5, [10]), (11, [4]), (9, [14]), (15, [8]), (7, [16]), (17, [6]), (23, [24]),
    (25, [22])]
  initial e := some (sqInitial e)
  handler e := some (listed (enum5 28) (sqBlocks e))

theorem sqFill_kept : Kept sqFill sqBlocks sqInitial sqRule where
  wf := by constructor <;> (try unfold Sys.Own) <;> (try unfold Sys.Port) <;> decide +kernel
  handler := fun o => ⟨_, rfl, lists_listed mem_enum5 _⟩
  initial := fun o => ⟨_, rfl, fun r => Iff.rfl⟩
  own := by unfold Sys.Own; decide +kernel
  keeps := by
    intro o
    have hl : ∀ p : Port (Fin 28), sqRule.kind p.i = some true → sqRule.kind p.o = some true → sqRule.Light p :=
      fun _ h1 h2 => ⟨h1, h2⟩
    have hf : ∀ f, reject5 f = false → sqRule.Freq f := fun f hf => ⟨AddSubgroup.mem_top _, hf⟩
    have hv : ∀ p : Port (Fin 28), sqRule.Light p → ∀ b ∈ (ends p : List (Block (Fin 28) (Key Unit (Fin 5)))), b.Keeps sqRule.Good := by
      intro p hp b hb
      simp only [ends, List.mem_cons, List.not_mem_nil, or_false] at hb
      rcases hb with rfl | rfl
      · exact keeps_copy (hp.2.trans hp.1.symm)
      · exact keeps_copy (hp.1.trans hp.2.symm)
    match o with
    | 0 => exact keeps_ports (A := sqRule) (e := sqLaser) ⟨hl _ rfl rfl, rfl, hf _ (by decide)⟩
    | 1 => exact keeps_sqz (A := sqRule) (hl _ rfl rfl) (hl _ rfl rfl) (hl _ rfl rfl) (hl _ rfl rfl) (by
        rintro f ⟨-, h⟩
        refine hf _ ?_
        show reject5 (0 + 0 - f) = false
        rw [add_zero, zero_sub, (odd5 f).1]
        exact h)
    | 2 => exact keeps_ports (A := sqRule) (e := sqPD) ⟨hl _ rfl rfl, rfl, rfl⟩
    | 3 => exact hv _ (hl _ rfl rfl)
    | 4 => exact hv _ (hl _ rfl rfl)
    | 5 => exact keeps_ports (A := sqRule) (e := sqCirc) (by
        intro p hp
        simp only [List.mem_cons, List.not_mem_nil, or_false] at hp
        rcases hp with rfl | rfl | rfl <;> exact hl _ rfl rfl)
    | 6 => exact keeps_ports (A := sqRule) (e := sqPD2) ⟨hl _ rfl rfl, rfl, rfl⟩
  starts := by
    intro o
    match o with
    | 0 => exact keeps_initial (A := sqRule) (e := sqLaser) ⟨⟨rfl, rfl⟩, rfl, AddSubgroup.mem_top _, by decide⟩
    | 1 | 2 | 3 | 4 | 5 | 6 => intro r hr; simp [sqInitial] at hr
  bonds := fun p q h _ => bonds_kind (by decide) p q h

theorem sq_run : ∃ st, run sqFill (fun _ => 0) 100 = .ok (some st) ∧ Has st.port_cplgs 2 (.opt ⟨(), 1, .S, .lower⟩) ∧
    Has st.port_cplgs 5 (.opt ⟨(), 1, .S, .lower⟩) ∧ Has st.port_cplgs 5 (.opt ⟨(), 4, .S, .raise⟩) ∧
    Has st.port_cplgs 8 (.opt ⟨(), 1, .S, .lower⟩) ∧ (∀ k, ¬ Has st.port_cplgs 4 k) ∧ ∀ k, ¬ Has st.port_cplgs 3 k := by
  have h : (match run sqFill (fun _ => 0) 100 with
    | .ok (some st) => decide (Key.opt ⟨(), 1, .S, .lower⟩ ∈ (st.port_cplgs.get? 2).getD ∅ ∧
        Key.opt ⟨(), 1, .S, .lower⟩ ∈ (st.port_cplgs.get? 5).getD ∅ ∧
        Key.opt ⟨(), 4, .S, .raise⟩ ∈ (st.port_cplgs.get? 5).getD ∅ ∧
        Key.opt ⟨(), 1, .S, .lower⟩ ∈ (st.port_cplgs.get? 8).getD ∅ ∧ (st.port_cplgs.get? 4).getD ∅ = ∅ ∧
        (st.port_cplgs.get? 3).getD ∅ = ∅)
    | _ => false) = true := by decide +kernel
  split at h
  · rename_i st hr
    have hget : ∀ p k, k ∈ (st.port_cplgs.get? p).getD ∅ ↔ Has st.port_cplgs p k := by
      intro p k
      unfold Has
      cases hg : st.port_cplgs.get? p <;> simp
    have hno : ∀ p, (st.port_cplgs.get? p).getD ∅ = ∅ → ∀ k, ¬ Has st.port_cplgs p k := by
      intro p h k hk
      have := (hget _ _).2 hk
      rw [h] at this
      simp at this
    rw [decide_eq_true_eq] at h
    exact ⟨st, hr, (hget _ _).1 h.1, (hget _ _).1 h.2.1, (hget _ _).1 h.2.2.1, (hget _ _).1 h.2.2.2.1, hno _ h.2.2.2.2.1,
      hno _ h.2.2.2.2.2⟩
  · cases h

/-- **C151, loss (disagreement).**  The couplings of the loss ports are made for the keys of the light that comes in beside them (l.264, 305-311).
Where the squeezed light goes to a photodiode, which sends nothing back, the vacuum of the loss is asked for at the loss port, but
nothing couples it to the squeezed light. -/
theorem C151_loss_refuted : Kept sqFill sqBlocks sqInitial sqRule ∧ sqBlocks 1 = sqz_ports sq ∧
    ∃ ch n st, run sqFill ch n = .ok (some st) ∧ ∃ k : OKey Unit (Fin 5), k.opt = sq.okey ∧ Has st.port_cplgs sq.po_Bk.o (.opt k) ∧
      Has st.port_cplgs sq.po_Bk.o (.opt (sq.reflect k)) ∧ Has st.port_cplgs sq.LBk.i (.opt k) ∧
      ∀ env : OEnv (Fin 28) Unit (Fin 5) ℚ, Shows sqRule (fun p k => Has st.port_cplgs p k) env →
        ∀ c ∈ sq.setup env, c.target = on sq.po_Bk.o k → ∃ j v, c = .edge (on sq.po_Fr.i j) (on sq.po_Bk.o k) v := by
  obtain ⟨st, hr, -, h1, h2, h3, h4, -⟩ := sq_run
  exact ⟨sqFill_kept, rfl, _, _, st, hr, ⟨(), 1, .S, .lower⟩, rfl, h1, h2, h3, fun env hs =>
    sqz_into_back (by decide) (fun hk => h4 _ (hs.okeys _ _ hk))⟩

/-- **C151, targets (disagreement).**  In the same system the squeezer couples the vacuum of the loss to the light that leaves its front, at a
key for which that port has no node. -/
theorem C151_targets_refuted : ∃ ch n st, run sqFill ch n = .ok (some st) ∧
    ∀ env : OEnv (Fin 28) Unit (Fin 5) ℚ, (∀ p k, k ∈ env.okeys p ↔ Has st.port_cplgs p (.opt k)) →
      ∃ k v, .edge (on sq.LFr.i k) (on sq.po_Fr.o k) v ∈ sq.setup env ∧ ¬ Has st.port_cplgs sq.po_Fr.o (.opt k) := by
  obtain ⟨st, hr, h1, -, -, -, -, h5⟩ := sq_run
  refine ⟨_, _, st, hr, fun env he => ⟨⟨(), 1, .S, .lower⟩, env.sqrt sq.loss, ?_, h5 _⟩⟩
  refine List.mem_append_left _ (List.mem_append_left _ (List.mem_flatMap.2 ⟨_, (he 2 _).2 h1, ?_⟩))
  rw [if_neg (by simp)]
  simp

/-! ## A squeezer between a laser and vacuum -/

/-- Ports: laser 0/1, squeezer front 2/3, back 4/5, loss 6/7 and 8/9, vacuum 10/11, 12/13 and 14/15 at the last three. -/
def sz : EZSqz (Fin 16) Unit (Fin 5) ℚ := ⟨⟨2, 3⟩, ⟨4, 5⟩, ⟨6, 7⟩, ⟨8, 9⟩, (), 0, 2, 1, 1 / 2, 0⟩

def szLaser : FElem (Fin 16) Unit (Fin 5) ℚ ℚ := .optical (.laser ⟨⟨0, 1⟩, 1, 0, .S, (), 1⟩)

def szBlocks : Fin 5 → List (Block (Fin 16) (Key Unit (Fin 5)))
  | 0 => szLaser.ports reject5 moCenter
  | 1 => sqz_ports sz
  | 2 => ends ⟨10, 11⟩
  | 3 => ends ⟨12, 13⟩
  | 4 => ends ⟨14, 15⟩

def szInitial : Fin 5 → List (Fin 16 × Key Unit (Fin 5))
  | 0 => szLaser.initial
  | _ => []

def szOwner : Fin 16 → Fin 5 := ![0, 0, 1, 1, 1, 1, 1, 1, 1, 1, 2, 2, 3, 3, 4, 4]

def szRule : Rule (Fin 16) Unit (Fin 5) ℚ where
  reject := reject5
  center := moCenter
  kind _ := some true
  opts _ p := p = .S
  G := ⊤

def szFill : Sys (Fin 5) (Fin 16) (Key Unit (Fin 5)) where
  elements := [0, 1, 2, 3, 4]
  port_owners := (List.finRange 16).map (fun p => (p, szOwner p))
  port_owners_virtual := []
  owners_ports := (List.finRange 5).map (fun e => (e, (List.finRange 16).filter (fun p => szOwner p = e)))
  owners_ports_virtual := [(0, []), (1, []), (2, []), (3, []), (4, [])]
  bond_pairs := [(1, [2]), (3, [0]), (5, [10]), (11, [4]), (7, [12]), (13, [6]), (9, [14]), (15, [8])]
  initial e := some (szInitial e)
  handler e := some (listed (enum5 16) (szBlocks e))

theorem szFill_kept : Kept szFill szBlocks szInitial szRule where
  wf := by constructor <;> (try unfold Sys.Own) <;> (try unfold Sys.Port) <;> decide +kernel
  handler := fun o => ⟨_, rfl, lists_listed mem_enum5 _⟩
  initial := fun o => ⟨_, rfl, fun r => Iff.rfl⟩
  own := by unfold Sys.Own; decide +kernel
  keeps := by
    intro o
    have hl : ∀ p : Port (Fin 16), szRule.Light p := fun _ => ⟨rfl, rfl⟩
    have hv : ∀ p : Port (Fin 16), ∀ b ∈ (ends p : List (Block (Fin 16) (Key Unit (Fin 5)))), b.Keeps szRule.Good := by
      intro p b hb
      simp only [ends, List.mem_cons, List.not_mem_nil, or_false] at hb
      rcases hb with rfl | rfl <;> exact keeps_copy rfl
    match o with
    | 0 => exact keeps_ports (A := szRule) (e := szLaser) ⟨hl _, rfl, AddSubgroup.mem_top _, by decide⟩
    | 1 => exact keeps_sqz (A := szRule) (hl _) (hl _) (hl _) (hl _) (by
        rintro f ⟨-, h⟩
        refine ⟨AddSubgroup.mem_top _, ?_⟩
        show reject5 (0 + 0 - f) = false
        rw [add_zero, zero_sub, (odd5 f).1]
        exact h)
    | 2 | 3 | 4 => exact hv _
  starts := by
    intro o
    match o with
    | 0 => exact keeps_initial (A := szRule) (e := szLaser) ⟨⟨rfl, rfl⟩, rfl, AddSubgroup.mem_top _, by decide⟩
    | 1 | 2 | 3 | 4 => intro r hr; simp [szInitial] at hr
  bonds := fun _ _ _ _ => rfl

/-- The hypotheses of `C151_light` and `C151_nodes_partial` are met together, and the result is not trivial: the light of the laser leaves the
squeezer with its reflection. -/
example : Kept szFill szBlocks szInitial szRule ∧ szBlocks 1 = sqz_ports sz ∧
    (∀ p ∈ sqz_all sz, szFill.port_owners.get? p = some 1) ∧ ∃ st, run szFill (fun _ => 0) 100 = .ok (some st) ∧
      (∀ p ∈ [sz.po_Fr, sz.po_Bk, sz.LFr, sz.LBk], ∀ k, Has st.port_cplgs p.i k → Has st.port_cplgs p.o k) ∧
      Has st.port_cplgs sz.po_Bk.i (.opt ⟨(), 1, .S, .lower⟩) ∧ Has st.port_cplgs sz.po_Bk.o (.opt ⟨(), 4, .S, .raise⟩) := by
  refine ⟨szFill_kept, rfl, by decide, ?_⟩
  have h : (match run szFill (fun _ => 0) 100 with
    | .ok (some st) => decide ((∀ p ∈ [sz.po_Fr, sz.po_Bk, sz.LFr, sz.LBk], (st.port_cplgs.get? p.i).getD ∅ ⊆ (st.port_cplgs.get? p.o).getD ∅) ∧
        Key.opt ⟨(), 1, .S, .lower⟩ ∈ (st.port_cplgs.get? sz.po_Bk.i).getD ∅ ∧
        Key.opt ⟨(), 4, .S, .raise⟩ ∈ (st.port_cplgs.get? sz.po_Bk.o).getD ∅)
    | _ => false) = true := by decide +kernel
  split at h
  · rename_i st hr
    have hget : ∀ p k, k ∈ (st.port_cplgs.get? p).getD ∅ ↔ Has st.port_cplgs p k := by
      intro p k
      unfold Has
      cases hg : st.port_cplgs.get? p <;> simp
    rw [decide_eq_true_eq] at h
    exact ⟨st, hr, fun p hp k hk => (hget _ _).1 (h.1 p hp ((hget _ _).2 hk)), (hget _ _).1 h.2.1, (hget _ _).1 h.2.2⟩
  · cases h

/-! ## A squeezer beside the carrier -/

/-- Ports: laser 0/1, squeezer front 2/3, back 4/5, loss 6/7 and 8/9; the center of the squeezer is at the frequency 1. -/
def sc : EZSqz (Fin 10) Unit (Fin 9) ℚ := ⟨⟨2, 3⟩, ⟨4, 5⟩, ⟨6, 7⟩, ⟨8, 9⟩, (), 1, 2, 1, 1 / 2, 0⟩

def scLaser : FElem (Fin 10) Unit (Fin 9) ℤ ℚ := .optical (.laser ⟨⟨0, 1⟩, 1, 0, .S, (), 7⟩)

def scBlocks : Fin 2 → List (Block (Fin 10) (Key Unit (Fin 9)))
  | 0 => scLaser.ports reject9 center9
  | 1 => sqz_ports sc

def scInitial : Fin 2 → List (Fin 10 × Key Unit (Fin 9))
  | 0 => scLaser.initial
  | 1 => []

def scOwner : Fin 10 → Fin 2 := ![0, 0, 1, 1, 1, 1, 1, 1, 1, 1]

def scFill : Sys (Fin 2) (Fin 10) (Key Unit (Fin 9)) where
  elements := [0, 1]
  port_owners := (List.finRange 10).map (fun p => (p, scOwner p))
  port_owners_virtual := []
  owners_ports := (List.finRange 2).map (fun e => (e, (List.finRange 10).filter (fun p => scOwner p = e)))
  owners_ports_virtual := [(0, []), (1, [])]
  bond_pairs := [(1, [2]), (3, [0])]
  initial e := some (scInitial e)
  handler e := some (listed (enum9 10) (scBlocks e))

/-- **C151, orders (disagreement).**  A squeezer whose center is not at the carrier asks for light beyond the order limits of the system; all
that it was asked for is within them. -/
theorem C151_orders_refuted : scFill.WF ∧ (∀ o, ∃ ssp, scFill.handler o = some ssp ∧ Lists ssp (scBlocks o)) ∧ scBlocks 1 = sqz_ports sc ∧
    (∀ o, ∀ r ∈ scInitial o, ∃ k, r.2 = .opt k ∧ reject9 k.cls = false) ∧ reject9 sc.ckey = false ∧
    ∃ ch n st, run scFill ch n = .ok (some st) ∧ ∃ k : OKey Unit (Fin 9), reject9 k.cls = true ∧ Has st.port_cplgs sc.po_Bk.o (.opt k) := by
  refine ⟨by constructor <;> (try unfold Sys.Own) <;> (try unfold Sys.Port) <;> decide +kernel,
    fun o => ⟨_, rfl, lists_listed mem_enum9 _⟩, rfl, ?_, by decide, fun _ => 0, 60, ?_⟩
  · intro o r hr
    match o with
    | 0 =>
      simp [scInitial, scLaser, FElem.initial, optical_initial] at hr
      rcases hr with rfl | rfl <;> exact ⟨_, rfl, by decide⟩
    | 1 => simp [scInitial] at hr
  have h : (match run scFill (fun _ => 0) 60 with
    | .ok (some st) => decide (Key.opt ⟨(), 4, .S, .raise⟩ ∈ (st.port_cplgs.get? sc.po_Bk.o).getD ∅)
    | _ => false) = true := by decide +kernel
  split at h
  · rename_i st hr
    rw [decide_eq_true_eq] at h
    refine ⟨st, hr, ⟨(), 4, .S, .raise⟩, by decide, ?_⟩
    unfold Has
    cases hg : st.port_cplgs.get? sc.po_Bk.o <;> rw [hg] at h <;> simp at h
    exact ⟨_, rfl, h⟩
  · cases h

end Fill
