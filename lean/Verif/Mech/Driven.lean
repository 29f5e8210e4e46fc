import Verif.Circuit.Props

/-!
# The driven ports of mirrors, and C149

Source: `/repo/phasor/mechanical/ports_driven.py`.  `env.Ze` is `Zm_termination`.
-/

set_option linter.unusedSectionVars false

namespace Circuit
open Py Inject

variable {P K F : Type} [DecidableEq P] [DecidableEq K] [Field F] [DecidableEq F]

/-- `ForceToDisplacementBase.system_setup_coupling`, l.56-90, for `MechanicalPortDriven`, whose `_port` is itself (l.93-99): the force `f` and
the displacement `d` at the port `A`, with `pre` and `post` made by `ports_pre_get` and `ports_post_get`. -/
def driven_setup (env : Env P K F) (F_DC : F) (f pre post d : P) (A : Port P) : Except Err (List (Coupling P K F)) :=
  blocks [dc_source env A.o F_DC (F_DC * env.Ze), per_key env f A.o (fun _ => .ok env.Ze),
    per_key env pre d (fun _ => .ok 1), per_key env post d (fun _ => .ok 1)]

section
variable {env : Env P K F} {F_DC : F} {f pre post d : P} {A : Port P} {cs : List (Coupling P K F)} {k : K}

theorem driven_into (h : driven_setup env F_DC f pre post d A = .ok cs) (hn : ∀ p, (env.keys p).Nodup) (hf : k ∈ env.keys f)
    (h1 : k ∈ env.keys pre) (h2 : k ∈ env.keys post) (x : P × K → F) (t : P) :
    total cs x (t, k) = (if A.o = t then env.Ze * (x (f, k) + if k = env.dc then F_DC else 0) else 0) +
      (if d = t then x (pre, k) + x (post, k) else 0) := by
  unfold driven_setup at h
  obtain ⟨c1, r1, e1, k1, rfl⟩ := blocks_cons h
  obtain ⟨c2, r2, e2, k2, rfl⟩ := blocks_cons k1
  obtain ⟨c3, r3, e3, k3, rfl⟩ := blocks_cons k2
  obtain ⟨c4, r4, e4, k4, rfl⟩ := blocks_cons k3
  obtain rfl := blocks_nil k4
  obtain ⟨v2, g2, t2⟩ := per_key_into e2 (hn _) hf
  obtain ⟨v3, g3, t3⟩ := per_key_into e3 (hn _) h1
  obtain ⟨v4, g4, t4⟩ := per_key_into e4 (hn _) h2
  injection g2 with g2
  injection g3 with g3
  injection g4 with g4
  subst g2 g3 g4
  rw [total_append, total_append, total_append, total_append, total_nil, t2, t3, t4,
    dc_into e1 (by rintro rfl; rw [zero_mul])]
  split_ifs <;> ring

/-- **C149, reading.**  The displacement of the port is read, whatever drives it. -/
theorem C149_reading (h : driven_setup env F_DC f pre post d A = .ok cs) (hn : ∀ p, (env.keys p).Nodup) (hf : k ∈ env.keys f)
    (h1 : k ∈ env.keys pre) (h2 : k ∈ env.keys post) (hd : A.o ≠ d) (x : P × K → F) :
    total cs x (d, k) = x (pre, k) + x (post, k) := by
  rw [driven_into h hn hf h1 h2, if_neg hd, if_pos rfl, zero_add]

/-- **C149, force (disagreement).**  A port with the force `f` acts as twice the force and a spring of stiffness `1 / Zm_termination` to the
ground, since the wave that comes in is not sent back; the force into the port is minus `f`, as for a source of force, for one displacement
only.  A port without a force is not free. -/
theorem C149_force_refuted (h : driven_setup env F_DC f pre post d A = .ok cs) (hn : ∀ p, (env.keys p).Nodup) (hZe : env.Ze ≠ 0)
    (hf : k ∈ env.keys f) (h1 : k ∈ env.keys pre) (h2 : k ∈ env.keys post) (hd : A.o ≠ d) (x : P × K → F) {D G f' : F}
    (hD : D = x (A.i, k) + total cs x (A.o, k)) (hG : G = (x (A.i, k) - total cs x (A.o, k)) / env.Ze)
    (hf' : f' = x (f, k) + if k = env.dc then F_DC else 0) :
    G = D / env.Ze - 2 * f' ∧ (G = -f' ↔ D = env.Ze * f') ∧ (f' = 0 → D ≠ 0 → G ≠ 0) := by
  have ht : total cs x (A.o, k) = env.Ze * f' := by
    rw [driven_into h hn hf h1 h2, if_pos rfl, if_neg (Ne.symm hd), add_zero, hf']
  rw [ht] at hD hG
  have hGD : G = D / env.Ze - 2 * f' := by
    rw [hG, hD]
    field_simp
    ring
  refine ⟨hGD, ?_, ?_⟩
  · rw [hGD]
    constructor
    · intro e
      field_simp at e
      linear_combination e
    · intro e
      rw [e]
      field_simp
      ring
  · rintro rfl hD0
    rw [hGD, mul_zero, sub_zero]
    exact div_ne_zero hD0 hZe

/-- The equations at the ports of a driven port `A` that is bonded to the port `B` of another element, at the key `k`; the readings before and
after the bond are those of the port. -/
structure Bonded (cs : List (Coupling P K F)) (x : P × K → F) (k : K) (pre post d : P) (A B : Port P) : Prop where
  A_out : x (A.o, k) = total cs x (A.o, k)
  B_out : x (B.o, k) = total cs x (B.o, k)
  A_in : x (A.i, k) = x (B.o, k)
  B_in : x (B.i, k) = x (A.o, k)
  pre_in : x (pre, k) = x (A.i, k)
  post_out : x (post, k) = x (A.o, k)
  reading : x (d, k) = total cs x (d, k)

variable {B : Port P} {cs' : List (Coupling P K F)}

theorem bonded_reading {S : F → Except Err F} (h : driven_setup env F_DC f pre post d A = .ok cs) (h' : setup1 env S B = .ok cs')
    (hn : ∀ p, (env.keys p).Nodup) (hf : k ∈ env.keys f) (h1 : k ∈ env.keys pre) (h2 : k ∈ env.keys post) (hB : k ∈ env.keys B.i)
    (hAd : A.o ≠ d) (hAB : A.o ≠ B.o) (hBd : B.o ≠ d) {x : P × K → F} (hx : Bonded (cs ++ cs') x k pre post d A B) :
    ∃ r, S (env.freq k) = .ok r ∧ x (d, k) = (1 + r) * (env.Ze * (x (f, k) + if k = env.dc then F_DC else 0)) := by
  obtain ⟨r, hr, ht⟩ := setup1_into h' hn hB
  refine ⟨r, hr, ?_⟩
  have e1 := hx.A_out
  have e2 := hx.B_out
  have e3 := hx.reading
  rw [total_append, driven_into h hn hf h1 h2, ht, if_pos rfl, if_neg (Ne.symm hAd), if_neg (Ne.symm hAB)] at e1
  rw [total_append, driven_into h hn hf h1 h2, ht, if_neg hAB, if_neg (Ne.symm hBd), if_pos rfl] at e2
  rw [total_append, driven_into h hn hf h1 h2, ht, if_neg hAd, if_pos rfl, if_neg hBd] at e3
  rw [e3, hx.pre_in, hx.post_out, hx.A_in, e2, hx.B_in, e1]
  ring

/-- **C149, clamped.**  A port that is not bonded to anything, and so is terminated by the ground, does not move under any force. -/
theorem C149_clamped (h : driven_setup env F_DC f pre post d A = .ok cs)
    (h' : setup1 env (fun f => OnePort.S11 env f .shorted) B = .ok cs')
    (hn : ∀ p, (env.keys p).Nodup) (hf : k ∈ env.keys f) (h1 : k ∈ env.keys pre) (h2 : k ∈ env.keys post) (hB : k ∈ env.keys B.i)
    (hAd : A.o ≠ d) (hAB : A.o ≠ B.o) (hBd : B.o ≠ d) {x : P × K → F} (hx : Bonded (cs ++ cs') x k pre post d A B) : x (d, k) = 0 := by
  obtain ⟨r, hr, e⟩ := bonded_reading h h' hn hf h1 h2 hB hAd hAB hBd hx
  injection hr with hr
  rw [e, ← hr]
  ring

/-- **C149, mass (disagreement).**  A force at a mass, spring or damper of mobility `Y`, as `s² m`, displaces it by `2 f / (Y + 1 / Zm)` and
not by `f / Y`; both are the same for one displacement only. -/
theorem C149_mass_refuted {t : Mob F} (h : driven_setup env F_DC f pre post d A = .ok cs) (h' : (Mech.one t B).setup env = .ok cs')
    (hn : ∀ p, (env.keys p).Nodup) (hZe : env.Ze ≠ 0) (hf : k ∈ env.keys f) (h1 : k ∈ env.keys pre) (h2 : k ∈ env.keys post)
    (hB : k ∈ env.keys B.i) (hAd : A.o ≠ d) (hAB : A.o ≠ B.o) (hBd : B.o ≠ d) {x : P × K → F}
    (hx : Bonded (cs ++ cs') x k pre post d A B) {f' : F} (hf' : f' = x (f, k) + if k = env.dc then F_DC else 0) :
    x (d, k) * (t.mobility env (env.freq k) + 1 / env.Ze) = 2 * f' ∧
    (x (d, k) * t.mobility env (env.freq k) = f' ↔ x (d, k) = env.Ze * f') := by
  obtain ⟨r, hr, e⟩ := bonded_reading h (S := fun f => terminatorM env (t.mobility env f)) h' hn hf h1 h2 hB hAd hAB hBd hx
  obtain ⟨hY, rfl⟩ := pdiv_ok hr
  rw [← hf'] at e
  have key : x (d, k) * (t.mobility env (env.freq k) + 1 / env.Ze) = 2 * f' := by
    rw [e]
    generalize t.mobility env (env.freq k) = Y at hY ⊢
    field_simp
    ring
  refine ⟨key, ?_⟩
  rw [mul_add, mul_one_div] at key
  constructor
  · intro e'
    rw [e'] at key
    field_simp at key
    linear_combination key
  · intro e'
    rw [e', mul_div_cancel_left₀ _ hZe] at key
    rw [e']
    linear_combination key

end

/-! ## an example: a mass of 1 kg at `s = 2`, which 201 N displace by 100 m instead of 201 / 4 m -/

def dxField (q : ℕ × ℕ) : ℚ :=
  if q.2 = 1 then
    match q.1 with
    | 0 => -9950 | 1 => 10050 | 2 => 10050 | 3 => -9950 | 10 => 201 | 11 => -9950 | 12 => 10050 | 13 => 100 | _ => 0
  else 0

example : ∃ cs cs', driven_setup cxEnv 0 10 11 12 13 (cxPort 0) = .ok cs ∧ (Mech.one (.mass 1) (cxPort 1)).setup cxEnv = .ok cs' ∧
    (∀ p, (cxEnv.keys p).Nodup) ∧ cxEnv.Ze ≠ 0 ∧ (∀ p, 1 ∈ cxEnv.keys p) ∧ (cxPort 0).o ≠ 13 ∧ (cxPort 0).o ≠ (cxPort 1).o ∧
    (cxPort 1).o ≠ 13 ∧ Bonded (cs ++ cs') dxField 1 11 12 13 (cxPort 0) (cxPort 1) ∧ dxField (13, 1) = 100 ∧ dxField (10, 1) = 201 ∧
    Mob.mobility cxEnv (cxEnv.freq 1) (.mass 1) = 4 := by
  have hc : (match driven_setup cxEnv 0 10 11 12 13 (cxPort 0), (Mech.one (.mass 1) (cxPort 1)).setup cxEnv with
      | .ok cs, .ok cs' => [1, 3, 13].all (fun t => decide (dxField (t, 1) = total (cs ++ cs') dxField (t, 1)))
      | _, _ => false) = true := by decide +kernel
  cases h1 : driven_setup cxEnv 0 10 11 12 13 (cxPort 0) with
  | error e => rw [h1] at hc; cases hc
  | ok cs =>
    cases h2 : (Mech.one (.mass 1) (cxPort 1)).setup cxEnv with
    | error e => rw [h1, h2] at hc; cases hc
    | ok cs' =>
      rw [h1, h2] at hc
      dsimp only at hc
      rw [List.all_eq_true] at hc
      refine ⟨cs, cs', rfl, rfl, fun _ => (by decide : [0, 1, 7].Nodup), by simp [cxEnv], fun _ => by simp [cxEnv], by decide, by decide,
        by decide, ⟨?_, ?_, rfl, rfl, rfl, rfl, ?_⟩, rfl, rfl, by norm_num [Mob.mobility, cxEnv]⟩
      · exact of_decide_eq_true (hc 1 (by simp))
      · exact of_decide_eq_true (hc 3 (by simp))
      · exact of_decide_eq_true (hc 13 (by simp))

/-- A port at the ground. -/
example : ∃ cs cs', driven_setup cxEnv 0 10 11 12 13 (cxPort 0) = .ok cs ∧
    setup1 cxEnv (fun f => OnePort.S11 cxEnv f .shorted) (cxPort 1) = .ok cs' ∧ cs' ≠ [] := by
  have : (match driven_setup cxEnv 0 10 11 12 13 (cxPort 0), setup1 cxEnv (fun f => OnePort.S11 cxEnv f .shorted) (cxPort 1) with
      | .ok _, .ok cs' => decide (cs' ≠ [])
      | _, _ => false) = true := by decide +kernel
  split at this
  · rename_i cs cs' h1 h2
    exact ⟨cs, cs', h1, h2, of_decide_eq_true this⟩
  · cases this

end Circuit
