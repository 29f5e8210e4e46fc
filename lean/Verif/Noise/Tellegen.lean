import Mathlib.Tactic.LinearCombination
import Verif.Circuit.NetProps

/-!
# Tellegen's theorem and reciprocity for circuits
-/

set_option linter.unusedSectionVars false

namespace Circuit
open Py Inject

/-! ## sums -/

section Sums
variable {α F : Type} [Field F]

theorem sum_map_add' (l : List α) (f h : α → F) :
    (l.map (fun a => f a + h a)).sum = (l.map f).sum + (l.map h).sum := by
  induction l with
  | nil => simp
  | cons a l ih => simp only [List.map_cons, List.sum_cons, ih]; ring

theorem sum_map_sub' (l : List α) (f h : α → F) :
    (l.map (fun a => f a - h a)).sum = (l.map f).sum - (l.map h).sum := by
  induction l with
  | nil => simp
  | cons a l ih => simp only [List.map_cons, List.sum_cons, ih]; ring

theorem sum_map_mul' (l : List α) (c : F) (f : α → F) : (l.map (fun a => c * f a)).sum = c * (l.map f).sum := by
  induction l with
  | nil => simp
  | cons a l ih => simp only [List.map_cons, List.sum_cons, ih]; ring

theorem sum_flatMap' {β : Type} (l : List α) (h : α → List β) (f : β → F) :
    ((l.flatMap h).map f).sum = (l.map (fun a => ((h a).map f).sum)).sum := by
  induction l with
  | nil => rfl
  | cons a l ih => rw [List.flatMap_cons, List.map_append, List.sum_append, ih, List.map_cons, List.sum_cons]

theorem sum_single' [DecidableEq α] {l : List α} (hn : l.Nodup) {a : α} (ha : a ∈ l) (f : α → F) :
    (l.map (fun b => if a = b then f b else 0)).sum = f a := by
  induction l with
  | nil => cases ha
  | cons b l ih =>
    rw [List.nodup_cons] at hn
    rw [List.map_cons, List.sum_cons]
    by_cases hab : a = b
    · subst hab
      rw [if_pos rfl, List.sum_eq_zero, add_zero]
      intro v hv
      obtain ⟨c, hc, rfl⟩ := List.mem_map.1 hv
      exact if_neg (fun h : a = c => hn.1 (h ▸ hc))
    · rw [if_neg hab, zero_add, ih hn.2 ((List.mem_cons.1 ha).resolve_left hab)]

end Sums

/-! ## the bonds pair the ports -/

section Bonds
variable {P : Type} [DecidableEq P]

/-- The two ends of the bonds. -/
def ends (rb : List (Port P × Port P)) : List (Port P) := rb.flatMap (fun ab => [ab.1, ab.2])

theorem attach_fresh {st st' : BondSt P} {o i : P} (h : attach st o i = .ok st') :
    i ∉ st.bonded ∧ st'.bonded = i :: o :: st.bonded := by
  unfold attach at h
  split_ifs at h with h1 h2
  cases h
  exact ⟨h1, rfl⟩

theorem bond_all_fresh {rb : List (Port P × Port P)} {st st' : BondSt P} (h : bond_all rb st = .ok st') :
    ((ends rb).map Port.i).Nodup ∧ ∀ p ∈ ends rb, p.i ∉ st.bonded := by
  induction rb generalizing st with
  | nil => exact ⟨List.nodup_nil, fun p hp => (nomatch hp)⟩
  | cons ab rb ih =>
    obtain ⟨A, C⟩ := ab
    unfold bond_all at h
    obtain ⟨s2, h2, h3⟩ := bind_ok_inv h
    unfold bond_old at h2
    obtain ⟨s1, h1, h2⟩ := bind_ok_inv h2
    obtain ⟨a1, a2⟩ := attach_fresh h1
    obtain ⟨b1, b2⟩ := attach_fresh h2
    obtain ⟨i1, i2⟩ := ih h3
    dsimp only at a1 a2 b1 b2
    rw [a2] at b1 b2
    have hAC : A.i ≠ C.i := fun e => b1 (by rw [e]; exact List.mem_cons_self)
    have e : ends ((A, C) :: rb) = A :: C :: ends rb := rfl
    rw [e]
    refine ⟨?_, ?_⟩
    · rw [List.map_cons, List.map_cons, List.nodup_cons, List.nodup_cons]
      refine ⟨?_, ?_, i1⟩
      · intro hm
        rcases List.mem_cons.1 hm with hm | hm
        · exact hAC hm
        · obtain ⟨p, hp, hpe⟩ := List.mem_map.1 hm
          refine i2 p hp ?_
          rw [b2, hpe]
          simp
      · intro hm
        obtain ⟨p, hp, hpe⟩ := List.mem_map.1 hm
        refine i2 p hp ?_
        rw [b2, hpe]
        simp
    · intro p hp
      rcases List.mem_cons.1 hp with rfl | hp
      · exact fun hb => b1 (List.mem_cons_of_mem _ (List.mem_cons_of_mem _ hb))
      · rcases List.mem_cons.1 hp with rfl | hp
        · exact a1
        · intro hb
          refine i2 p hp ?_
          rw [b2]
          simp [hb]

end Bonds

variable {B K F : Type} [DecidableEq B] [DecidableEq K] [Field F] [DecidableEq F]
variable {n : Net B F} {env : Env (Key B) K F} {cs : List (Coupling (Key B) K F)} {ports : Dict (Key B) (List K)}
variable {g : SR (Key B × K)} {fuel : Nat}

theorem ports_nodup (hw : n.WF) : n.ports.Nodup := by
  have h := hw.nodup
  unfold Net.nodes at h
  generalize n.ports = ps at h
  induction ps with
  | nil => exact List.nodup_nil
  | cons a ps ih =>
    rw [List.flatMap_cons, List.nodup_append] at h
    rw [List.nodup_cons]
    refine ⟨fun hm => ?_, ih h.2.1⟩
    exact h.2.2 a.i (by simp) a.i (List.mem_flatMap.2 ⟨a, hm, by simp⟩) rfl

theorem ends_perm (hl : n.links ports fuel = .ok (some g)) (hw : n.WF) : (ends n.bonds).Perm n.ports := by
  unfold Net.links at hl
  obtain ⟨st, hst, -⟩ := bind_ok_inv hl
  rw [List.perm_ext_iff_of_nodup (List.Nodup.of_map _ (bond_all_fresh hst).1) (ports_nodup hw)]
  intro p
  constructor
  · intro h
    obtain ⟨ab, hab, hp⟩ := List.mem_flatMap.1 h
    simp only [List.mem_cons, List.not_mem_nil, or_false] at hp
    rcases hp with rfl | rfl
    · exact (hw.ends _ hab).1
    · exact (hw.ends _ hab).2
  · intro h
    obtain ⟨ab, hab, hp⟩ := hw.bonded p h
    refine List.mem_flatMap.2 ⟨ab, hab, ?_⟩
    rcases hp with rfl | rfl <;> simp

/-- **Tellegen's theorem**: voltages equal across the bonds and currents opposite across the bonds give no power in
total. -/
theorem tellegen (hl : n.links ports fuel = .ok (some g)) (hw : n.WF) {V I : Port (Key B) → F}
    (hV : ∀ ab ∈ n.bonds, V ab.1 = V ab.2) (hI : ∀ ab ∈ n.bonds, I ab.1 + I ab.2 = 0) :
    (n.ports.map (fun p => V p * I p)).sum = 0 := by
  rw [← ((ends_perm hl hw).map _).sum_eq, ends, sum_flatMap']
  apply List.sum_eq_zero
  intro v hv
  obtain ⟨ab, hab, rfl⟩ := List.mem_map.1 hv
  simp only [List.map_cons, List.map_nil, List.sum_cons, List.sum_nil]
  linear_combination V ab.1 * hI ab hab - I ab.2 * hV ab hab

/-! ## the elements -/

section Elements
variable {P : Type} [DecidableEq P]

/-- All elements but the operational amplifiers and the converters of strings. -/
def Elem.Reciprocal : Elem P F → Prop
  | .opAmp _ _ _ _ => False
  | .mech (.zconv _ _ _ _) => False
  | _ => True

/-- All electrical elements but the operational amplifiers. -/
def Elem.Passive : Elem P F → Prop
  | .opAmp _ _ _ _ => False
  | .mech _ => False
  | _ => True

theorem Elem.Passive.reciprocal {el : Elem P F} (h : el.Passive) : el.Reciprocal := by
  cases el with
  | opAmp => exact h
  | mech => exact h.elim
  | _ => trivial

/-- The resistances of an element, with the port whose current flows through them. -/
def Elem.losses (env : Env P K F) : Elem P F → List (Port P × F)
  | .one (.resistor R) A => [(A, R)]
  | .one (.inductor R _) A => [(A, R)]
  | .one .matched A => [(A, env.Ze)]
  | .two (.resistor R) A _ => [(A, R)]
  | .two (.inductor R _) A _ => [(A, R)]
  | _ => []

variable {env : Env P K F} {el : Elem P F} {V I V' I' : Port P → F} {s s' : P → F} {k kP kN : K}

theorem connection_power {ps : List (Port P)} (h : ∀ p ∈ ps, ∀ q ∈ ps, V p = V q) (h' : (ps.map I).sum = 0) :
    (ps.map (fun p => V p * I p)).sum = 0 := by
  cases ps with
  | nil => rfl
  | cons a ps =>
    have : (a :: ps).map (fun p => V p * I p) = (a :: ps).map (fun p => V a * I p) :=
      List.map_congr_left (fun p hp => by rw [h p hp a List.mem_cons_self])
    rw [this, sum_map_mul', h', mul_zero]

theorem mech_recip {m : Mech P F} (hp : (Elem.mech m).Reciprocal) (hZe : env.Ze ≠ 0) (h2 : (2 : F) ≠ 0)
    (h : m.Law env k V I) (h' : m.Law env k V' I') : (m.ports.map (fun p => V p * I' p - V' p * I p)).sum = 0 := by
  cases m with
  | one t A =>
    simp only [Mech.Law, Mech.ports, List.map_cons, List.map_nil, List.sum_cons, List.sum_nil] at *
    rw [h, h']
    ring
  | two t A C =>
    simp only [Mech.Law, Mech.ports, List.map_cons, List.map_nil, List.sum_cons, List.sum_nil] at *
    obtain ⟨h1, h3⟩ := h
    obtain ⟨h1', h3'⟩ := h'
    linear_combination (V A - V C) * h1' - (V' A - V' C) * h1 + V C * h3' - V' C * h3
  | cable l Loss rt A C =>
    simp only [Mech.Law, Mech.ports, List.map_cons, List.map_nil, List.sum_cons, List.sum_nil] at *
    obtain ⟨h1, h3⟩ := h
    obtain ⟨h1', h3'⟩ := h'
    generalize env.exp (-2 * env.i * env.pi * env.freq k * l) * (if Loss = 0 then 1 else rt (1 - Loss)) = e at *
    apply mul_left_cancel₀ (mul_ne_zero h2 hZe)
    linear_combination (V' C + env.Ze * I' C) * h1 + (V' A + env.Ze * I' A) * h3 - (V C + env.Ze * I C) * h1' -
      (V A + env.Ze * I A) * h3'
  | zconv y eps A C => exact hp.elim
  | lever d A C L =>
    simp only [Mech.Law, Mech.ports, List.map_cons, List.map_nil, List.sum_cons, List.sum_nil] at *
    obtain ⟨h1, h3, h4⟩ := h
    obtain ⟨h1', h3', h4'⟩ := h'
    linear_combination I' A * h1 - I A * h1' + V C * h3' - V' C * h3 + V L * h4' - V' L * h4
  | xyz dv d root A C L =>
    simp only [Mech.Law, Mech.ports, List.map_cons, List.map_nil, List.sum_cons, List.sum_nil] at *
    obtain ⟨⟨a1, a2, a3⟩, ⟨b1, b2, b3⟩, c1, c2, c3⟩ := h
    obtain ⟨⟨a1', a2', a3'⟩, ⟨b1', b2', b3'⟩, c1', c2', c3'⟩ := h'
    linear_combination I' A.X * a1 + I' A.Y * a2 + I' A.Z * a3 - I A.X * a1' - I A.Y * a2' - I A.Z * a3' +
      V C.X * b1' + V C.Y * b2' + V C.Z * b3' - V' C.X * b1 - V' C.Y * b2 - V' C.Z * b3 +
      V L.X * c1' + V L.Y * c2' + V L.Z * c3' - V' L.X * c1 - V' L.Y * c2 - V' L.Z * c3

/-- Every element is reciprocal. -/
theorem elem_recip (hp : el.Reciprocal) (hZe : env.Ze ≠ 0) (h2 : (2 : F) ≠ 0) (hdc : k ≠ env.dc)
    (h : el.Law env k V I s) (h' : el.Law env k V' I' s') (hs : ∀ q ∈ el.signals, s q = 0)
    (hs' : ∀ q ∈ el.signals, s' q = 0) : (el.ports.map (fun p => V p * I' p - V' p * I p)).sum = 0 := by
  cases el with
  | one t A =>
    cases t <;> simp only [Elem.Law, Elem.ports, List.map_cons, List.map_nil, List.sum_cons, List.sum_nil] at * <;>
      rw [h, h'] <;> ring
  | two t A C =>
    cases t <;> simp only [Elem.Law, Elem.ports, List.map_cons, List.map_nil, List.sum_cons, List.sum_nil] at * <;>
      obtain ⟨h1, h3⟩ := h <;> obtain ⟨h1', h3'⟩ := h'
    · linear_combination I' A * h1 - I A * h1' + V C * h3' - V' C * h3
    · linear_combination (V A - V C) * h1' - (V' A - V' C) * h1 + V C * h3' - V' C * h3
    · linear_combination I' A * h1 - I A * h1' + V C * h3' - V' C * h3
  | connection ps =>
    simp only [Elem.Law, Elem.ports] at *
    rw [sum_map_sub', connection_power h.1 h'.2, connection_power h'.1 h.2, sub_zero]
  | cable l A C =>
    simp only [Elem.Law, Elem.ports, List.map_cons, List.map_nil, List.sum_cons, List.sum_nil] at *
    obtain ⟨h1, h3⟩ := h
    obtain ⟨h1', h3'⟩ := h'
    generalize env.exp (-2 * env.i * env.pi * env.freq k * l) = e at *
    apply mul_left_cancel₀ (mul_ne_zero h2 hZe)
    linear_combination (V' C + env.Ze * I' C) * h1 + (V' A + env.Ze * I' A) * h3 - (V C + env.Ze * I C) * h1' -
      (V A + env.Ze * I A) * h3'
  | voltageSource v q A =>
    simp only [Elem.Law, Elem.ports, Elem.signals, List.mem_singleton, forall_eq, if_neg hdc, add_zero, List.map_cons,
      List.map_nil, List.sum_cons, List.sum_nil] at *
    rw [h, h', hs, hs']
    ring
  | currentSource v q A =>
    simp only [Elem.Law, Elem.ports, Elem.signals, List.mem_singleton, forall_eq, if_neg hdc, add_zero, List.map_cons,
      List.map_nil, List.sum_cons, List.sum_nil] at *
    rw [h, h', hs, hs']
    ring
  | voltageSourceBalanced v w q r A C =>
    simp only [Elem.Law, Elem.ports, Elem.signals, List.mem_cons, List.not_mem_nil, or_false, forall_eq_or_imp, forall_eq,
      if_neg hdc, add_zero, List.map_cons, List.map_nil, List.sum_cons, List.sum_nil] at *
    obtain ⟨h1, h3⟩ := h
    obtain ⟨h1', h3'⟩ := h'
    rw [hs.1] at h1
    rw [hs'.1] at h1'
    rw [hs.2] at h3
    rw [hs'.2] at h3'
    linear_combination I' A * h1 - I A * h1' + V C * h3' - V' C * h3
  | currentSourceBalanced v q A C =>
    simp only [Elem.Law, Elem.ports, Elem.signals, List.mem_singleton, forall_eq, if_neg hdc, add_zero, List.map_cons,
      List.map_nil, List.sum_cons, List.sum_nil] at *
    rw [h.1, h.2, h'.1, h'.2, hs, hs']
    ring
  | opAmp g p m out => exact hp.elim
  | mech m => exact mech_recip hp hZe h2 h h'

/-- The power an element takes up, between a frequency and its negative, is that of its resistances. -/
theorem elem_power (hp : el.Passive) (hZe : env.Ze ≠ 0) (h2 : (2 : F) ≠ 0) (hP : kP ≠ env.dc) (hN : kN ≠ env.dc)
    (hf : env.freq kN = -env.freq kP) (hexp : ∀ t, env.exp t * env.exp (-t) = 1)
    (h : el.Law env kP V I s) (h' : el.Law env kN V' I' s') (hs : ∀ q ∈ el.signals, s q = 0)
    (hs' : ∀ q ∈ el.signals, s' q = 0) : (el.ports.map (fun p => V p * I' p + V' p * I p)).sum =
      2 * ((el.losses env).map (fun r => r.2 * I r.1 * I' r.1)).sum := by
  cases el with
  | one t A =>
    cases t <;> simp only [Elem.Law, Elem.ports, Elem.losses, List.map_cons, List.map_nil, List.sum_cons, List.sum_nil,
      hf] at * <;> rw [h, h'] <;> ring
  | two t A C =>
    cases t <;> simp only [Elem.Law, Elem.ports, Elem.losses, List.map_cons, List.map_nil, List.sum_cons, List.sum_nil,
      hf] at * <;> obtain ⟨h1, h3⟩ := h <;> obtain ⟨h1', h3'⟩ := h'
    · linear_combination I' A * h1 + I A * h1' + V C * h3' + V' C * h3
    · linear_combination (V A - V C) * h1' + (V' A - V' C) * h1 + V C * h3' + V' C * h3
    · linear_combination I' A * h1 + I A * h1' + V C * h3' + V' C * h3
  | connection ps =>
    simp only [Elem.Law, Elem.ports, Elem.losses, List.map_nil, List.sum_nil, mul_zero] at *
    rw [sum_map_add', connection_power h.1 h'.2, connection_power h'.1 h.2, add_zero]
  | cable l A C =>
    simp only [Elem.Law, Elem.ports, Elem.losses, List.map_cons, List.map_nil, List.sum_cons, List.sum_nil, hf] at *
    obtain ⟨h1, h3⟩ := h
    obtain ⟨h1', h3'⟩ := h'
    have he := hexp (-2 * env.i * env.pi * env.freq kP * l)
    rw [show -(-2 * env.i * env.pi * env.freq kP * l) = -2 * env.i * env.pi * -env.freq kP * l by ring] at he
    generalize env.exp (-2 * env.i * env.pi * env.freq kP * l) = e at *
    generalize env.exp (-2 * env.i * env.pi * -env.freq kP * l) = e' at *
    apply mul_left_cancel₀ (mul_ne_zero h2 hZe)
    linear_combination (-1 : F) * (V' C - env.Ze * I' C) * h1 - e * (V A + env.Ze * I A) * h1' -
      (V' A - env.Ze * I' A) * h3 - e * (V C + env.Ze * I C) * h3' -
      ((V A + env.Ze * I A) * (V' A + env.Ze * I' A) + (V C + env.Ze * I C) * (V' C + env.Ze * I' C)) * he
  | voltageSource v q A =>
    simp only [Elem.Law, Elem.ports, Elem.losses, Elem.signals, List.mem_singleton, forall_eq, if_neg hP, if_neg hN,
      add_zero, List.map_cons, List.map_nil, List.sum_cons, List.sum_nil] at *
    rw [h, h', hs, hs']
    ring
  | currentSource v q A =>
    simp only [Elem.Law, Elem.ports, Elem.losses, Elem.signals, List.mem_singleton, forall_eq, if_neg hP, if_neg hN,
      add_zero, List.map_cons, List.map_nil, List.sum_cons, List.sum_nil] at *
    rw [h, h', hs, hs']
    ring
  | voltageSourceBalanced v w q r A C =>
    simp only [Elem.Law, Elem.ports, Elem.losses, Elem.signals, List.mem_cons, List.not_mem_nil, or_false,
      forall_eq_or_imp, forall_eq, if_neg hP, if_neg hN, add_zero, List.map_cons, List.map_nil, List.sum_cons,
      List.sum_nil] at *
    obtain ⟨h1, h3⟩ := h
    obtain ⟨h1', h3'⟩ := h'
    rw [hs.1] at h1
    rw [hs'.1] at h1'
    rw [hs.2] at h3
    rw [hs'.2] at h3'
    linear_combination I' A * h1 + I A * h1' + V C * h3' + V' C * h3
  | currentSourceBalanced v q A C =>
    simp only [Elem.Law, Elem.ports, Elem.losses, Elem.signals, List.mem_singleton, forall_eq, if_neg hP, if_neg hN,
      add_zero, List.map_cons, List.map_nil, List.sum_cons, List.sum_nil] at *
    rw [h.1, h.2, h'.1, h'.2, hs, hs']
    ring
  | opAmp g p m out => exact hp.elim
  | mech m => exact hp.elim

end Elements

/-! ## circuits -/

/-- The circuit can be solved at the key `k`: the couplings and the bonds are built, and the key is known at all
ports. -/
structure Ready (n : Net B F) (env : Env (Key B) K F) (cs : List (Coupling (Key B) K F)) (ports : Dict (Key B) (List K))
    (fuel : Nat) (g : SR (Key B × K)) (k : K) : Prop where
  cs : n.couplings env = .ok cs
  links : n.links ports fuel = .ok (some g)
  wf : n.WF
  nodup : ∀ p, (env.keys p).Nodup
  keys : ∀ q, env.keys q = (Dict.get? ports (q.1, none)).getD []
  Ze : env.Ze ≠ 0
  two : (2 : F) ≠ 0
  nodes : ∀ q ∈ n.nodes, k ∈ env.keys q
  flucts : ∀ f ∈ n.flucts, k ∈ env.keys f.virt
  signals : ∀ el ∈ n.els, ∀ q ∈ el.signals, k ∈ env.keys q

/-- The fields solve the equations of all waves and test points at the key `k`. -/
def Sol (n : Net B F) (g : SR (Key B × K)) (cs : List (Coupling (Key B) K F)) (x : Key B × K → F) (k : K) : Prop :=
  ∀ t ∈ n.nodes ++ n.tests, NodeEq g cs x (t, k)

variable {k kP kN : K} {x y z : Key B × K → F}

theorem cn_zero (hv : ∀ f ∈ n.flucts, f.voltage = true) (x : Key B × K → F) (k : K) (p : Port (Key B)) :
    n.cn x k p = 0 := by
  unfold Net.cn
  apply List.sum_eq_zero
  intro v hv'
  obtain ⟨f, hf, rfl⟩ := List.mem_map.1 hv'
  rw [if_neg]
  rw [hv f hf]
  exact fun h => absurd h.1 (by decide)

/-- the bonds and the laws, for circuits with voltage fluctuations only -/
theorem Ready.laws (hr : Ready n env cs ports fuel g k) (hv : ∀ f ∈ n.flucts, f.voltage = true) (hx : Sol n g cs x k) :
    (∀ ab ∈ n.bonds, n.V x k ab.1 = n.V x k ab.2 ∧ n.I env x k ab.1 + n.I env x k ab.2 = 0) ∧
    ∀ el ∈ n.els, el.Law env k (fun p => n.V x k p + n.vn x k p) (n.I env x k) (fun q => x (q, k)) := by
  obtain ⟨h1, h2, -⟩ := (C55_circuit hr.cs hr.links hr.wf hr.nodup hr.keys hr.Ze hr.two hr.nodes hr.flucts hr.signals x).1 hx
  refine ⟨h1, fun el hel => ?_⟩
  have := h2 el hel
  simp only [cn_zero hv, zero_div, add_zero] at this
  exact this

/-- the fluctuations summed over the ports -/
theorem sum_vn (hw : n.WF) (hv : ∀ f ∈ n.flucts, f.voltage = true) (x : Key B × K → F) (k : K) (J : Port (Key B) → F) :
    (n.ports.map (fun p => n.vn x k p * J p)).sum = (n.flucts.map (fun f => x (f.virt, k) * J f.port)).sum := by
  unfold Net.vn
  have : ∀ l : List (Fluct B), (∀ f ∈ l, f.voltage = true ∧ f.port ∈ n.ports) →
      (n.ports.map (fun p => (l.map (fun f => if f.voltage = true ∧ f.port = p then x (f.virt, k) else 0)).sum * J p)).sum =
        (l.map (fun f => x (f.virt, k) * J f.port)).sum := by
    intro l hl
    induction l with
    | nil => simp
    | cons f l ih =>
      have hf := hl f List.mem_cons_self
      rw [List.map_cons, List.sum_cons, ← ih (fun f h => hl f (List.mem_cons_of_mem _ h)),
        ← sum_single' (ports_nodup hw) hf.2 (fun p => x (f.virt, k) * J p), ← sum_map_add']
      refine congrArg List.sum (List.map_congr_left fun p _ => ?_)
      rw [List.map_cons, List.sum_cons, add_mul]
      congr 1
      by_cases h : f.port = p
      · rw [if_pos ⟨hf.1, h⟩, if_pos h]
      · rw [if_neg (fun hh => h hh.2), if_neg h, zero_mul]
  exact this _ (fun f hf => ⟨hv f hf, hw.flucts f hf⟩)

/-- Tellegen's theorem with the fluctuations: the voltages `V` on the element side of one solution, the currents of
another. -/
theorem tellegen_flucts (hr : Ready n env cs ports fuel g k) (hr' : Ready n env cs ports fuel g kN)
    (hv : ∀ f ∈ n.flucts, f.voltage = true) (hx : Sol n g cs x k) (hy : Sol n g cs y kN) :
    (n.els.map (fun el => (el.ports.map (fun p => (n.V x k p + n.vn x k p) * n.I env y kN p)).sum)).sum =
      (n.flucts.map (fun f => x (f.virt, k) * n.I env y kN f.port)).sum := by
  have h := tellegen hr.links hr.wf (V := n.V x k) (I := n.I env y kN) (fun ab hab => ((hr.laws hv hx).1 ab hab).1)
    (fun ab hab => ((hr'.laws hv hy).1 ab hab).2)
  rw [← sum_flatMap', ← sum_vn hr.wf hv x k (n.I env y kN)]
  change (n.ports.map _).sum = _
  rw [← zero_add (List.sum (n.ports.map (fun p => n.vn x k p * _))), ← h, ← sum_map_add']
  exact congrArg List.sum (List.map_congr_left fun p _ => by ring)

/-- only the elements which are driven contribute -/
theorem sum_els_single (hw : n.WF) {el0 : Elem (Key B) F} (h0 : el0 ∈ n.els) {A : Port (Key B)} (hA : A ∈ el0.ports)
    {G : Elem (Key B) F → F} (hG : ∀ el ∈ n.els, A ∉ el.ports → G el = 0) : (n.els.map G).sum = G el0 := by
  obtain ⟨l1, l2, hl⟩ := List.append_of_mem h0
  have hnd := ports_nodup hw
  unfold Net.ports at hnd
  rw [hl, List.flatMap_append, List.flatMap_cons, List.nodup_append] at hnd
  obtain ⟨-, hnd2, hd1⟩ := hnd
  rw [List.nodup_append] at hnd2
  obtain ⟨-, -, hd2⟩ := hnd2
  have zero : ∀ l : List (Elem (Key B) F), (∀ el ∈ l, el ∈ n.els ∧ A ∉ el.ports) → (l.map G).sum = 0 := by
    intro l h
    apply List.sum_eq_zero
    intro v hv
    obtain ⟨el, hel, rfl⟩ := List.mem_map.1 hv
    exact hG el (h el hel).1 (h el hel).2
  rw [hl, List.map_append, List.map_cons, List.sum_append, List.sum_cons, zero l1, zero l2]
  · ring
  · intro el hel
    refine ⟨by rw [hl]; simp [hel], fun h => ?_⟩
    exact hd2 A hA A (List.mem_flatMap.2 ⟨el, hel, h⟩) rfl
  · intro el hel
    refine ⟨by rw [hl]; simp [hel], fun h => ?_⟩
    exact hd1 A (List.mem_flatMap.2 ⟨el, hel, h⟩) A (List.mem_append_left _ hA) rfl

end Circuit
