import Verif.Fill.Props
import Verif.Ports.Props

/-! # C93-C95: systems that meet the hypotheses, and systems where the properties fail -/

set_option linter.unusedSectionVars false

namespace Fill
open Py Ports Optics Circuit Inject

section
variable {P κ : Type} [DecidableEq P] [DecidableEq κ]

/-- A method that makes the requests of the loops `bs` in the order of `enum`. -/
def listed (enum : List (P × κ)) (bs : List (Block P κ)) (v : View P κ) : Except Err (List (P × κ)) :=
  match runs v bs with
  | .ok rs => .ok (enum.filter (fun r => r ∈ rs))
  | .error e => .error e

theorem lists_listed {enum : List (P × κ)} (h : ∀ r, r ∈ enum) (bs : List (Block P κ)) : Lists (listed enum bs) bs := by
  intro v
  unfold listed
  cases runs v bs with
  | error e => rfl
  | ok rs => exact ⟨_, rfl, fun r => by rw [List.mem_filter, decide_eq_true_eq]; exact ⟨fun h => h.2, fun hr => ⟨h r, hr⟩⟩⟩

end

/-- Frequency keys: the multiples `-2, …, 2` of one frequency. -/
def center5 (k : Fin 5) : ℤ := if k ≤ 2 then (k : ℤ) else (k : ℤ) - 5

/-- The order limit 1. -/
def reject5 (k : Fin 5) : Bool := decide (1 < |center5 k|)

def keys5 : List (Key Unit (Fin 5)) :=
  (List.finRange 5).flatMap (fun f => [.sig f, .opt ⟨(), f, .S, .lower⟩, .opt ⟨(), f, .S, .raise⟩, .opt ⟨(), f, .P, .lower⟩,
    .opt ⟨(), f, .P, .raise⟩])

theorem mem_keys5 : ∀ k, k ∈ keys5 := by
  have h1 : ∀ f : Fin 5, .sig f ∈ keys5 := by decide
  have h2 : ∀ f : Fin 5, (.opt ⟨(), f, .S, .lower⟩ ∈ keys5 ∧ .opt ⟨(), f, .S, .raise⟩ ∈ keys5) ∧
    .opt ⟨(), f, .P, .lower⟩ ∈ keys5 ∧ .opt ⟨(), f, .P, .raise⟩ ∈ keys5 := by decide
  intro k
  match k with
  | .sig f => exact h1 f
  | .opt ⟨(), f, .S, .lower⟩ => exact (h2 f).1.1
  | .opt ⟨(), f, .S, .raise⟩ => exact (h2 f).1.2
  | .opt ⟨(), f, .P, .lower⟩ => exact (h2 f).2.1
  | .opt ⟨(), f, .P, .raise⟩ => exact (h2 f).2.2

def enum5 (n : Nat) : List (Fin n × Key Unit (Fin 5)) := (List.finRange n).flatMap (fun p => keys5.map (fun k => (p, k)))

theorem mem_enum5 {n : Nat} (r : Fin n × Key Unit (Fin 5)) : r ∈ enum5 n :=
  List.mem_flatMap.2 ⟨r.1, List.mem_finRange _, List.mem_map.2 ⟨r.2, mem_keys5 _, rfl⟩⟩

theorem odd5 (f : Fin 5) : reject5 (-f) = reject5 f ∧ center5 (-f) = -center5 f := by
  revert f
  decide

/-- The bonds join ports of the same kind. -/
theorem bonds_kind {E P κ : Type} [DecidableEq E] [DecidableEq P] {S : Sys E P κ} {kind : P → Option Bool}
    (h : ∀ x ∈ S.bond_pairs, ∀ q ∈ x.2, kind x.1 = kind q) (p q : P) (hc : S.Conn p q) : kind p = kind q := by
  induction hc with
  | rel x y hb =>
    obtain ⟨l, h1, h2⟩ := hb
    exact h _ h1 _ h2
  | refl x => rfl
  | symm x y _ ih => exact ih.symm
  | trans x y z _ _ h1 h2 => exact h1.trans h2

/-! ## A laser, a phase modulator with its generator, and a photodiode -/

/-- The ports: laser 0/1, modulator front 2/3, back 4/5, drive 6, back-action 7, photodiode 8/9, back-action 10, signal 11, generator
12. -/
def exEl : Fin 4 → FElem (Fin 13) Unit (Fin 5) ℤ ℚ
  | 0 => .optical (.laser ⟨⟨0, 1⟩, 1, 0, .S, (), 0⟩)
  | 1 => .optical (.pm ⟨2, 3⟩ ⟨4, 5⟩ 6 7)
  | 2 => .optical (.pd ⟨8, 9⟩ 10 11)
  | 3 => .signal (.generator ⟨12, 1, 1, none, 0, []⟩)

def exOwner : Fin 13 → Fin 4 := ![0, 0, 1, 1, 1, 1, 1, 1, 2, 2, 2, 2, 3]

def exRule : Rule (Fin 13) Unit (Fin 5) ℤ where
  reject := reject5
  center := center5
  kind := ![some true, some true, some true, some true, some true, some true, some false, some false, some true, some true, none,
    some false, some false]
  opts _ p := p = .S
  G := ⊤

def exFill : Sys (Fin 4) (Fin 13) (Key Unit (Fin 5)) where
  elements := [0, 1, 2, 3]
  port_owners := (List.finRange 13).map (fun p => (p, exOwner p))
  port_owners_virtual := []
  owners_ports := (List.finRange 4).map (fun e => (e, (List.finRange 13).filter (fun p => exOwner p = e)))
  owners_ports_virtual := [(0, []), (1, []), (2, []), (3, [])]
  bond_pairs := [(1, [2]), (3, [0]), (5, [8]), (9, [4]), (12, [6])]
  initial e := some (exEl e).initial
  handler e := some (listed (enum5 13) ((exEl e).ports exRule.reject exRule.center))

theorem exFill_wf : exFill.WF := by
  constructor <;> (try unfold Sys.Own) <;> (try unfold Sys.Port) <;> decide

theorem exFill_built : Built exFill exEl exRule where
  wf := exFill_wf
  handler := fun o => ⟨_, rfl, lists_listed mem_enum5 _⟩
  initial := fun o => ⟨_, rfl, fun r => Iff.rfl⟩
  own := by decide
  fits := by
    intro o
    have hl : ∀ p : Port (Fin 13), exRule.kind p.i = some true → exRule.kind p.o = some true → exRule.Light p :=
      fun _ h1 h2 => ⟨h1, h2⟩
    have hf : ∀ f, reject5 f = false → exRule.Freq f := fun f hf => ⟨AddSubgroup.mem_top _, hf⟩
    match o with
    | 0 => exact ⟨hl _ rfl rfl, rfl, hf _ (by decide)⟩
    | 1 => exact ⟨hl _ rfl rfl, hl _ rfl rfl, rfl, rfl⟩
    | 2 => exact ⟨hl _ rfl rfl, rfl, rfl⟩
    | 3 => exact ⟨rfl, hf _ (by decide), hf _ (by decide), by simp⟩
  bonds := fun p q h _ => bonds_kind (by decide) p q h
  wires := by
    intro o a b h
    match o with
    | 0 => simp [exEl] at h
    | 1 => simp [exEl] at h
    | 2 => simp [exEl] at h
    | 3 => simp [exEl] at h

theorem outcome_run {E P κ : Type} [DecidableEq E] [DecidableEq P] [DecidableEq κ] {S : Sys E P κ} {ch : Nat → Nat} {n : Nat} {p : P}
    {s : Finset κ} (h : outcome S ch n p = some s) : ∃ st, run S ch n = .ok (some st) ∧ ∀ k, Has st.port_cplgs p k ↔ k ∈ s := by
  unfold outcome at h
  split at h
  · rename_i st hr
    refine ⟨st, hr, fun k => ⟨?_, fun hk => ⟨s, h, hk⟩⟩⟩
    rintro ⟨s', h1, h2⟩
    rw [h] at h1
    cases h1
    exact h2
  · cases h

/-- The signal keys -/
def sigs (l : List (Fin 5)) : Finset (Key Unit (Fin 5)) := (l.map Key.sig).toFinset

/-- The hypotheses of the theorems C93-C96 are met together, and the result is not trivial: the laser and the generator make the
sidebands up to the order limit, and the photodiode has all their beats; nothing is at its port `BA`. -/
example : Built exFill exEl exRule ∧ exRule.Odd ∧ (∀ o, Plain (exEl o)) ∧ (∀ o, Settled exRule (exEl o)) ∧
    outcome exFill (fun _ => 0) 40 11 = some (sigs [0, 1, 4]) ∧
    outcome exFill (fun n => n + 1) 40 11 = some (sigs [0, 1, 4]) ∧ outcome exFill (fun _ => 0) 40 10 = some ∅ := by
  refine ⟨exFill_built, ⟨fun f => (odd5 f).1, fun f => (odd5 f).2⟩, ?_, ?_, by decide +kernel, by decide +kernel, by decide +kernel⟩
  · intro o
    match o with
    | 0 | 1 | 2 | 3 => trivial
  · intro o
    match o with
    | 0 | 2 | 3 => trivial
    | 1 => exact fun _ _ _ _ h h' => ⟨rfl, h.trans h'.symm⟩

/-- What the ports show after a run. -/
def exEnv (st : St (Fin 4) (Fin 13) (Key Unit (Fin 5))) : OEnv (Fin 13) Unit (Fin 5) ℚ where
  okeys p := keys5.filterMap (fun k => match k with
    | .opt k => if .opt k ∈ (st.port_cplgs.get? p).getD ∅ then some k else none
    | .sig _ => none)
  skeys p := (List.finRange 5).filter (fun k => .sig k ∈ (st.port_cplgs.get? p).getD ∅)
  reject := reject5
  iwavelen_m _ := 1
  freq k := center5 k
  i := 1
  pi := 1
  i2pi := 1
  c_m_s := 1
  exp _ := 1
  sqrt _ := 1
  cos _ := 1
  sin _ := 0

/-- In this system the elements set up and insert their couplings. -/
example (ch : Nat → Nat) (n : Nat) (st) (hr : run exFill ch n = .ok (some st)) :
    ∃ cs m, blocks (([.laser ⟨⟨0, 1⟩, 1, 0, .S, (), 0⟩, .pm ⟨2, 3⟩ ⟨4, 5⟩ 6 7, .pd ⟨8, 9⟩ 10 11] : List (OElem (Fin 13) Unit (Fin 5) ℚ)).map
      (OElem.setup (exEnv st))) = .ok cs ∧
      insert_all ((List.finRange 13).map (fun p => (p, keys5))) (cs.map Coupling.inj) = .ok m := by
  have hget : ∀ p k, k ∈ (st.port_cplgs.get? p).getD ∅ ↔ Has st.port_cplgs p k := by
    intro p k
    unfold Has
    cases st.port_cplgs.get? p <;> simp
  refine C94_setup_partial exFill_built ⟨fun f => (odd5 f).1, fun f => (odd5 f).2⟩ ?_ hr ?_ ?_ ?_ rfl ?_ ?_
  · intro o
    match o with
    | 0 | 1 | 2 | 3 => trivial
  · intro p k
    rw [← hget]
    simp only [exEnv, List.mem_filterMap]
    constructor
    · rintro ⟨x, _, hx⟩
      cases x with
      | sig _ => cases hx
      | opt x =>
        dsimp only at hx
        split at hx
        · rename_i h
          cases hx
          exact h
        · cases hx
    · intro h
      exact ⟨.opt k, mem_keys5 _, if_pos h⟩
  · intro p k
    rw [← hget]
    simp [exEnv]
  · intro p
    exact List.Nodup.filter (fun k => decide (.sig k ∈ (st.port_cplgs.get? p).getD ∅)) (List.nodup_finRange 5)
  · intro e he
    simp only [List.mem_cons, List.not_mem_nil, or_false] at he
    rcases he with rfl | rfl | rfl
    · exact ⟨0, by decide, rfl⟩
    · exact ⟨1, by decide, rfl⟩
    · exact ⟨2, by decide, rfl⟩
  · intro p l hl
    have h : ∀ p : Fin 13, Dict.get? ((List.finRange 13).map (fun p => (p, keys5))) p = some keys5 := by decide
    rw [h] at hl
    cases hl
    exact ⟨by unfold Sys.Port; revert p; decide, fun k _ => mem_keys5 k⟩

/-! ## A generator of second harmonics -/

/-- Two generators of the frequencies 1 (port 0) and 0 (port 1), the latter behind an amplifier (7, 8), are summed (2, 3, 4) and drive
a `Harmonic2Generator` (5, 6). -/
def h2El : Fin 5 → FElem (Fin 9) Unit (Fin 5) ℤ ℚ
  | 0 => .signal (.generator ⟨0, 1, 1, none, 0, []⟩)
  | 1 => .signal (.generator ⟨1, 0, 1, none, 0, []⟩)
  | 2 => .signal (.summing 2 [(3, 1), (4, 1)])
  | 3 => .signal (.harmonic2 5 6)
  | 4 => .signal (.distribution 7 [(8, 1)])

def h2Owner : Fin 9 → Fin 5 := ![0, 1, 2, 2, 2, 3, 3, 4, 4]

def h2Rule : Rule (Fin 9) Unit (Fin 5) ℤ where
  reject := reject5
  center := center5
  kind _ := some false
  opts _ _ := True
  G := ⊤

def h2Fill : Sys (Fin 5) (Fin 9) (Key Unit (Fin 5)) where
  elements := [0, 1, 2, 3, 4]
  port_owners := (List.finRange 9).map (fun p => (p, h2Owner p))
  port_owners_virtual := []
  owners_ports := (List.finRange 5).map (fun e => (e, (List.finRange 9).filter (fun p => h2Owner p = e)))
  owners_ports_virtual := [(0, []), (1, []), (2, []), (3, []), (4, [])]
  bond_pairs := [(0, [3]), (1, [7]), (8, [4]), (2, [5])]
  initial e := some (h2El e).initial
  handler e := some (listed (enum5 9) ((h2El e).ports h2Rule.reject h2Rule.center))

theorem h2Fill_built : Built h2Fill h2El h2Rule where
  wf := by constructor <;> (try unfold Sys.Own) <;> (try unfold Sys.Port) <;> decide
  handler := fun o => ⟨_, rfl, lists_listed mem_enum5 _⟩
  initial := fun o => ⟨_, rfl, fun r => Iff.rfl⟩
  own := by decide
  fits := by
    intro o
    have hf : ∀ f, reject5 f = false → h2Rule.Freq f := fun f hf => ⟨AddSubgroup.mem_top _, hf⟩
    match o with
    | 0 => exact ⟨rfl, hf _ (by decide), hf _ (by decide), by simp⟩
    | 1 => exact ⟨rfl, hf _ (by decide), hf _ (by decide), by simp⟩
    | 2 => exact ⟨rfl, fun _ _ => rfl⟩
    | 3 => exact ⟨rfl, rfl⟩
    | 4 => exact ⟨rfl, fun _ _ => rfl⟩
  bonds := fun p q h _ => bonds_kind (by decide) p q h
  wires := by
    intro o a b h
    match o with
    | 0 => simp [h2El] at h
    | 1 => simp [h2El] at h
    | 2 => simp [h2El] at h
    | 3 => simp [h2El] at h
    | 4 => simp [h2El] at h

theorem h2_late : outcome h2Fill (fun n => n) 40 6 = some (sigs [0, 4]) := by decide +kernel

theorem h2_early : outcome h2Fill (fun _ => 0) 40 6 = some (sigs [0, 1, 4]) := by decide +kernel

/-- **C94**: it fails with a `Harmonic2Generator`: the test of the signs of two frequencies (mixer.py l.254-259) lets a new key 0
pass with a negative frequency, not with a positive one. -/
theorem C94_harmonic_refuted : Built h2Fill h2El h2Rule ∧ h2Rule.Odd ∧
    ∃ ch n st, run h2Fill ch n = .ok (some st) ∧ ∃ p k, Has st.port_cplgs p k ∧ ¬ Has st.port_cplgs p k.conj := by
  refine ⟨h2Fill_built, ⟨fun f => (odd5 f).1, fun f => (odd5 f).2⟩, fun n => n, 40, ?_⟩
  obtain ⟨st, hr, hs⟩ := outcome_run h2_late
  refine ⟨st, hr, 6, .sig 4, ?_, ?_⟩
  · rw [hs]; decide
  · rw [hs]; decide

/-- **C96**: it fails with a `Harmonic2Generator`: the same system in two orders of the worklist. -/
theorem C96_harmonic_refuted : Built h2Fill h2El h2Rule ∧
    ∃ ch n st ch' n' st', run h2Fill ch n = .ok (some st) ∧ run h2Fill ch' n' = .ok (some st') ∧
      ∃ p k, Has st.port_cplgs p k ∧ ¬ Has st'.port_cplgs p k := by
  refine ⟨h2Fill_built, fun _ => 0, 40, ?_⟩
  obtain ⟨st, hr, hs⟩ := outcome_run h2_early
  obtain ⟨st', hr', hs'⟩ := outcome_run h2_late
  refine ⟨st, fun n => n, 40, st', hr, hr', 6, .sig 1, ?_, ?_⟩
  · rw [hs]; decide
  · rw [hs']; decide

/-! ## Two polarizations -/

/-- A laser with polarization `S` (0/1) at the front of a modulator (2/3, 4/5, 6, 7), and one with polarization `P` and another
frequency (8/9) at its back.  No signal drives the modulator. -/
def crossEl : Fin 3 → FElem (Fin 10) Unit (Fin 5) ℤ ℚ
  | 0 => .optical (.laser ⟨⟨0, 1⟩, 1, 0, .S, (), 0⟩)
  | 1 => .optical (.pm ⟨2, 3⟩ ⟨4, 5⟩ 6 7)
  | 2 => .optical (.laser ⟨⟨8, 9⟩, 1, 0, .P, (), 1⟩)

def crossOwner : Fin 10 → Fin 3 := ![0, 0, 1, 1, 1, 1, 1, 1, 2, 2]

def crossRule : Rule (Fin 10) Unit (Fin 5) ℤ where
  reject := reject5
  center := center5
  kind := ![some true, some true, some true, some true, some true, some true, some false, some false, some true, some true]
  opts _ _ := True
  G := ⊤

def crossFill : Sys (Fin 3) (Fin 10) (Key Unit (Fin 5)) where
  elements := [0, 1, 2]
  port_owners := (List.finRange 10).map (fun p => (p, crossOwner p))
  port_owners_virtual := []
  owners_ports := (List.finRange 3).map (fun e => (e, (List.finRange 10).filter (fun p => crossOwner p = e)))
  owners_ports_virtual := [(0, []), (1, []), (2, [])]
  bond_pairs := [(1, [2]), (3, [0]), (5, [8]), (9, [4])]
  initial e := some (crossEl e).initial
  handler e := some (listed (enum5 10) ((crossEl e).ports crossRule.reject crossRule.center))

theorem crossFill_built : Built crossFill crossEl crossRule where
  wf := by constructor <;> (try unfold Sys.Own) <;> (try unfold Sys.Port) <;> decide
  handler := fun o => ⟨_, rfl, lists_listed mem_enum5 _⟩
  initial := fun o => ⟨_, rfl, fun r => Iff.rfl⟩
  own := by decide
  fits := by
    intro o
    have hl : ∀ p : Port (Fin 10), crossRule.kind p.i = some true → crossRule.kind p.o = some true → crossRule.Light p :=
      fun _ h1 h2 => ⟨h1, h2⟩
    have hf : ∀ f, reject5 f = false → crossRule.Freq f := fun f hf => ⟨AddSubgroup.mem_top _, hf⟩
    match o with
    | 0 => exact ⟨hl _ rfl rfl, trivial, hf _ (by decide)⟩
    | 1 => exact ⟨hl _ rfl rfl, hl _ rfl rfl, rfl, rfl⟩
    | 2 => exact ⟨hl _ rfl rfl, trivial, hf _ (by decide)⟩
  bonds := fun p q h _ => bonds_kind (by decide) p q h
  wires := by
    intro o a b h
    match o with
    | 0 => simp [crossEl] at h
    | 1 => simp [crossEl] at h
    | 2 => simp [crossEl] at h

theorem cross_few : outcome crossFill (fun _ => 2) 40 6 = some (sigs [0]) := by decide +kernel

theorem cross_many : outcome crossFill (fun _ => 0) 40 6 = some (sigs [0, 1, 4]) := by decide +kernel

/-- **C96**: it fails for a modulator with two polarizations: when the key of the output is new, `symmetric_update` does not select
(nonlinear_utilities.py l.105-109), and the modulator asks for a signal that would make one polarization of the other. -/
theorem C96_drive_refuted : Built crossFill crossEl crossRule ∧
    ∃ ch n st ch' n' st', run crossFill ch n = .ok (some st) ∧ run crossFill ch' n' = .ok (some st') ∧
      ∃ p k, Has st.port_cplgs p k ∧ ¬ Has st'.port_cplgs p k := by
  refine ⟨crossFill_built, fun _ => 0, 40, ?_⟩
  obtain ⟨st, hr, hs⟩ := outcome_run cross_many
  obtain ⟨st', hr', hs'⟩ := outcome_run cross_few
  refine ⟨st, fun _ => 2, 40, st', hr, hr', 6, .sig 1, ?_, ?_⟩
  · rw [hs]; decide
  · rw [hs']; decide

/-! ## A driven back-action port -/

/-- A laser (0/1), and a photodiode (2/3, 4, 5) whose port `BA` is bonded with a generator (6). -/
def baEl : Fin 3 → FElem (Fin 7) Unit (Fin 5) ℤ ℚ
  | 0 => .optical (.laser ⟨⟨0, 1⟩, 1, 0, .S, (), 0⟩)
  | 1 => .optical (.pd ⟨2, 3⟩ 4 5)
  | 2 => .signal (.generator ⟨6, 1, 1, none, 0, []⟩)

def baOwner : Fin 7 → Fin 3 := ![0, 0, 1, 1, 1, 1, 2]

def baFill : Sys (Fin 3) (Fin 7) (Key Unit (Fin 5)) where
  elements := [0, 1, 2]
  port_owners := (List.finRange 7).map (fun p => (p, baOwner p))
  port_owners_virtual := []
  owners_ports := (List.finRange 3).map (fun e => (e, (List.finRange 7).filter (fun p => baOwner p = e)))
  owners_ports_virtual := [(0, []), (1, []), (2, [])]
  bond_pairs := [(1, [2]), (3, [0]), (6, [4])]
  initial e := some (baEl e).initial
  handler e := some (listed (enum5 7) ((baEl e).ports reject5 center5))

def failure {α : Type} : Except Err α → Option Err
  | .ok _ => none
  | .error e => some e

/-- **C95**: without the condition that nothing drives the port `BA` of a photodiode the worklist raises an `UnboundLocalError`. -/
theorem C95_no_error_refuted : baFill.WF ∧ run baFill (fun _ => 0) 5 = .error .unboundLocal := by
  refine ⟨by constructor <;> (try unfold Sys.Own) <;> (try unfold Sys.Port) <;> decide, ?_⟩
  have h : failure (run baFill (fun _ => 0) 5) = some .unboundLocal := by decide +kernel
  cases hr : run baFill (fun _ => 0) 5 with
  | ok r => rw [hr] at h; cases h
  | error e => rw [hr] at h; cases h; rfl

end Fill
