import Verif.Optics.Demo
import Verif.Optics.Feed
import Verif.Optics.Selective

/-!
# Examples for spaces, lasers, rotators, wave plates, selectors and circulators (C71-C76)
-/

namespace Optics
open Py Inject Circuit
open Signal (Balanced wave)

/-- Light at the frequencies 0 and 1 at all ports, which are numbers. -/
noncomputable abbrev xenv : OEnv ℕ Unit ℤ ℂ := demo (fun _ => keysAt [0, 1]) (fun _ => [0, 1, -1]) (fun _ => false)

/-- The amplitude 2 at all keys. -/
noncomputable def beam (k : OKey Unit ℤ) : ℂ := if k ∈ keysAt [0, 1] then 2 else 0

theorem beam_out (k : OKey Unit ℤ) (h : k ∉ keysAt [0, 1]) : beam k = 0 := if_neg h

theorem beam_in (p : Pol) : beam ⟨(), 1, p, .lower⟩ = 2 := by
  have : (⟨(), 1, p, .lower⟩ : OKey Unit ℤ) ∈ keysAt [0, 1] := mem_keysAt.2 (show (1 : ℤ) ∈ [0, 1] by decide)
  exact if_pos this

theorem xenv_exp : (∀ a b, xenv.exp (a + b) = xenv.exp a * xenv.exp b) ∧ xenv.exp 0 = 1 ∧
    (∀ z, star (xenv.exp z) = xenv.exp (star z)) ∧ star xenv.i2pi = -xenv.i2pi :=
  ⟨Complex.exp_add, Complex.exp_zero, fun z => (Complex.exp_conj z).symm, by
    show (starRingEnd ℂ) (2 * Real.pi * Complex.I) = -(2 * Real.pi * Complex.I)
    rw [map_mul, map_mul, map_ofNat, Complex.conj_ofReal, Complex.conj_I, mul_neg]⟩

theorem xenv_real : (∀ k, xenv.freq (-k) = -xenv.freq k) ∧ (∀ k, star (xenv.freq k) = xenv.freq k) ∧
    (∀ o, star (xenv.iwavelen_m o) = xenv.iwavelen_m o) ∧ star xenv.c_m_s = xenv.c_m_s ∧ star xenv.pi = xenv.pi ∧
    (∀ z, star (xenv.cos z) = xenv.cos (star z)) ∧ (∀ z, star (xenv.sin z) = xenv.sin (star z)) := by
  refine ⟨fun k => ?_, fun k => ?_, fun o => star_ofNat 1000000, star_ofNat 299792458, Complex.conj_ofReal _,
    fun z => (Complex.cos_conj z).symm, fun z => (Complex.sin_conj z).symm⟩
  · show ((-k : ℤ) : ℂ) = -(k : ℂ)
    push_cast
    rfl
  · show (starRingEnd ℂ) (k : ℂ) = k
    simp

theorem xenv_angles : Angles xenv where
  cos_zero := Complex.cos_zero
  sin_zero := Complex.sin_zero
  cos_pi := Complex.cos_pi
  sin_pi := Complex.sin_pi
  cos_half := Complex.cos_pi_div_two
  sin_half := Complex.sin_pi_div_two
  cos_neg := Complex.cos_neg
  sin_neg := Complex.sin_neg
  cos_add := Complex.cos_add
  sin_add := Complex.sin_add

theorem xwithin {x : ℕ × Key Unit ℤ → ℂ} (h : ∀ p k, k ∉ keysAt [0, 1] → x (p, .opt k) = 0) (p : ℕ) : Within xenv x p :=
  ⟨keysAt_nodup (by decide), fun k hk => h p k hk⟩

theorem flip_keys : ∀ k ∈ keysAt [0, 1], k.flip ∈ keysAt [0, 1] := by
  intro k hk
  rw [mem_keysAt] at hk ⊢
  exact hk

/-! ## two spaces in a row (C71) -/

/-- Three metres, detuned by a fraction of the wavelength. -/
noncomputable def space1 : Space ℕ ℂ := ⟨⟨0, 15⟩, ⟨12, 3⟩, 3, 1 / 7000000⟩

noncomputable def space2 : Space ℕ ℂ := ⟨⟨4, 11⟩, ⟨8, 7⟩, 5, 0⟩

noncomputable def space12 : Space ℕ ℂ := ⟨⟨0, 15⟩, ⟨8, 7⟩, 8, 1 / 7000000⟩

/-- The places of the ports along the two beams. -/
def xdepth (p : ℕ) : ℕ := if p < 8 then p else p - 8

example : ∃ x : ℕ × Key Unit ℤ → ℂ, x (0, .opt ⟨(), 1, .S, .lower⟩) = 2 ∧ x (8, .opt ⟨(), 1, .S, .lower⟩) = 2 ∧
    (∀ p, Within xenv x p) ∧ (space12.po_Fr = space1.po_Fr ∧ space12.po_Bk = space2.po_Bk) ∧
    space12.L_m = space1.L_m + space2.L_m ∧ space12.L_detune_m = space1.L_detune_m + space2.L_detune_m ∧
    space1.po_Fr.o ≠ space1.po_Bk.o ∧ space2.po_Fr.o ≠ space2.po_Bk.o ∧ space1.po_Fr.o ≠ space2.po_Bk.o ∧
    star space1.L_m = space1.L_m ∧ star space1.L_detune_m = space1.L_detune_m ∧
    (∀ k, x (space2.po_Fr.i, .opt k) = ((space1.setup xenv).map (fun c => c.into x (space1.po_Bk.o, .opt k))).sum) ∧
    (∀ k, x (space1.po_Bk.i, .opt k) = ((space2.setup xenv).map (fun c => c.into x (space2.po_Fr.o, .opt k))).sum) := by
  have hnet : ∀ c ∈ space1.setup xenv ++ (space2.setup xenv ++ (owire_setup xenv 3 4 ++ owire_setup xenv 11 12)),
      Lifts xdepth (keysAt [0, 1]) c := by
    intro c hc
    rw [List.mem_append, List.mem_append, List.mem_append] at hc
    rcases hc with hc | hc | hc | hc
    · exact lifts_both (env := xenv) (p := ⟨0, 15⟩) (q := ⟨12, 3⟩) (by decide) (by decide) rfl rfl _ c hc
    · exact lifts_both (env := xenv) (p := ⟨4, 11⟩) (q := ⟨8, 7⟩) (by decide) (by decide) rfl rfl _ c hc
    · exact lifts_wire (by decide) rfl c hc
    · exact lifts_wire (by decide) rfl c hc
  obtain ⟨x, h0, hk, hx⟩ := lifts_exists hnet (fun _ => beam) (fun _ k h => beam_out k h)
  have w := xwithin hk
  have s1 : ∀ p, 15 ≠ p → 3 ≠ p → ∀ k, total (space1.setup xenv) x (on p k) = 0 := fun p h1 h2 k =>
    both_elsewhere (w _) (w _) _ h1 h2 k
  have s2 : ∀ p, 11 ≠ p → 7 ≠ p → ∀ k, total (space2.setup xenv) x (on p k) = 0 := fun p h1 h2 k =>
    both_elsewhere (w _) (w _) _ h1 h2 k
  refine ⟨x, (h0 0 _ rfl).trans (beam_in _), (h0 8 _ rfl).trans (beam_in _), w, ⟨rfl, rfl⟩, ?_, ?_, by decide, by decide,
    by decide, star_ofNat 3, ?_, fun k => ?_, fun k => ?_⟩
  · show (8 : ℂ) = 3 + 5
    norm_num
  · show (1 / 7000000 : ℂ) = 1 / 7000000 + 0
    norm_num
  · show (starRingEnd ℂ) (1 / 7000000 : ℂ) = 1 / 7000000
    rw [map_div₀, map_one, map_ofNat]
  · show x (4, .opt k) = total (space1.setup xenv) x (on 3 k)
    have a : x (3, .opt k) = total (space1.setup xenv) x (on 3 k) := by
      rw [hx 3 k (by decide), total_append, total_append, total_append, s2 3 (by decide) (by decide),
        Mount.wire_total (w 3), Mount.wire_total (w 11), if_neg (by decide), if_neg (by decide)]
      ring
    rw [hx 4 k (by decide), total_append, total_append, total_append, s1 4 (by decide) (by decide),
      s2 4 (by decide) (by decide), Mount.wire_total (w 3), Mount.wire_total (w 11), if_pos rfl, if_neg (by decide), ← a]
    ring
  · show x (12, .opt k) = total (space2.setup xenv) x (on 11 k)
    have a : x (11, .opt k) = total (space2.setup xenv) x (on 11 k) := by
      rw [hx 11 k (by decide), total_append, total_append, total_append, s1 11 (by decide) (by decide),
        Mount.wire_total (w 3), Mount.wire_total (w 11), if_neg (by decide), if_neg (by decide)]
      ring
    rw [hx 12 k (by decide), total_append, total_append, total_append, s1 12 (by decide) (by decide),
      s2 12 (by decide) (by decide), Mount.wire_total (w 3), Mount.wire_total (w 11), if_neg (by decide), if_pos rfl, ← a]
    ring

/-! ## a laser, a space and a photodiode (C72) -/

/-- 2 W at the frequency 1 in `PolP`. -/
noncomputable def laser2 : Laser ℕ Unit ℤ ℂ := ⟨⟨20, 0⟩, 2, 1 / 3, .P, (), 1⟩

noncomputable def space3 : Space ℕ ℂ := ⟨⟨1, 9⟩, ⟨8, 2⟩, 3, 1 / 7000000⟩

example : ∃ x cs, pd_setup xenv ⟨3, 10⟩ 30 31 = .ok cs ∧ xenv.sqrt laser2.power_W * xenv.sqrt laser2.power_W = laser2.power_W ∧
    space3.po_Fr.o ≠ space3.po_Bk.o ∧ (∀ k : ℤ, -k = k → k = 0) ∧
    (∀ k ∈ xenv.okeys 3, ({ k with q := k.q.conj } : OKey Unit ℤ) ∈ xenv.okeys 3) ∧
    (∀ k ∈ xenv.okeys 3, xenv.reject k.cls = false) ∧
    (⟨laser2.opt, laser2.cls, laser2.pol, .lower⟩ : OKey Unit ℤ) ∈ xenv.okeys 3 ∧
    Balanced (xenv.skeys 30) ∧ Balanced (xenv.skeys 31) ∧ (∀ p, Within xenv x p) ∧
    (∀ k, x (space3.po_Fr.i, .opt k) = ((laser2.setup xenv).map (fun c => c.into x (laser2.po_Fr.o, .opt k))).sum) ∧
    (∀ k, x (3, .opt k) = ((space3.setup xenv).map (fun c => c.into x (space3.po_Bk.o, .opt k))).sum) ∧
    (0 : ℤ) ∈ xenv.skeys 31 := by
  have hB : Balanced ([0, 1, -1] : List ℤ) := ⟨by decide, by decide⟩
  have h1 : ∃ cs, pd_setup xenv ⟨3, 10⟩ 30 31 = .ok cs := by
    apply blocks_ok
    intro b hb
    obtain ⟨k, _, rfl⟩ := List.mem_map.1 hb
    exact fill_ok _ _ _ (by rintro p ⟨⟩; exact hB.2) (by rintro p ⟨⟩; exact hB.2)
  obtain ⟨cs, hcs⟩ := h1
  let L : OKey Unit ℤ → ℂ := fun k => total (laser2.setup xenv) (fun _ => 0) (on 0 k)
  let x : ℕ × Key Unit ℤ → ℂ := fun n => match n with
    | (1, .opt k) => L k
    | (3, .opt k) => space3.cplg xenv k * L k
    | _ => 0
  have hL : ∀ k, k ∉ keysAt [0, 1] → L k = 0 := by
    intro k hk
    have hq : ∀ q, laser2.key q ≠ k := by
      rintro q rfl
      apply hk
      rw [mem_keysAt]
      show (1 : ℤ) ∈ [0, 1]
      decide
    show total (laser2.setup xenv) (fun _ => 0) (on 0 k) = 0
    unfold Laser.setup
    rw [total_cons, total_cons, total_nil, into_source, into_source, if_neg, if_neg]
    · ring
    · intro h
      injection h with _ h
      injection h with h
      exact hq _ h
    · intro h
      injection h with _ h
      injection h with h
      exact hq _ h
  have w : ∀ p, Within xenv x p := by
    apply xwithin
    intro p k hk
    by_cases h1 : p = 1
    · subst h1
      exact hL k hk
    · by_cases h3 : p = 3
      · subst h3
        show space3.cplg xenv k * L k = 0
        rw [hL k hk, mul_zero]
      · show (match (p, Key.opt k) with
          | (1, .opt k) => L k
          | (3, .opt k) => space3.cplg xenv k * L k
          | _ => 0) = 0
        split
        · rename_i h
          cases h
          exact absurd rfl h1
        · rename_i h
          cases h
          exact absurd rfl h3
        · rfl
  refine ⟨x, cs, hcs, ?_, by decide, fun k h => by omega, keysAt_conj _, fun _ _ => rfl, ?_, hB, hB, w, fun k => ?_,
    fun k => ?_, show (0 : ℤ) ∈ [0, 1, -1] by decide⟩
  · exact csqrt_sq (a := 2) (by norm_num)
  · exact mem_keysAt.2 (show (1 : ℤ) ∈ [0, 1] by decide)
  · show L k = total (laser2.setup xenv) x (on 0 k)
    show total (laser2.setup xenv) (fun _ => 0) (on 0 k) = _
    unfold Laser.setup
    rw [total_cons, total_cons, total_nil, total_cons, total_cons, total_nil, into_source, into_source, into_source, into_source]
  · exact (space_total space3 (by decide) (w _) (w _) k).1.symm

/-! ## rotators in front of a mirror (C73) -/

/-- 30 degrees -/
noncomputable def rot30 : Rotator ℕ ℂ := ⟨⟨0, 13⟩, ⟨10, 3⟩, 30⟩

/-- For both kinds of rotators there is light that enters at the front and is sent back from the back. -/
theorem rot30_exists (back : ℂ) : ∃ x : ℕ × Key Unit ℤ → ℂ, (∀ p, Within xenv x p) ∧
    x (0, .opt ⟨(), 1, .S, .lower⟩) = 2 ∧
    ∀ k, x (rot30.po_Bk.i, .opt k) = ((rot30.run xenv back).map (fun c => c.into x (rot30.po_Bk.o, .opt k))).sum := by
  have hnet : ∀ c ∈ rot30.run xenv back ++ owire_setup xenv 3 10, Lifts id (keysAt [0, 1]) c := by
    intro c hc
    rcases List.mem_append.1 hc with hc | hc
    · exact lifts_run flip_keys rot30 back (by decide) (by decide) rfl rfl c hc
    · exact lifts_wire (by decide) rfl c hc
  obtain ⟨x, h0, hk, hx⟩ := lifts_exists hnet (fun _ => beam) (fun _ k h => beam_out k h)
  have w := xwithin hk
  refine ⟨x, w, (h0 0 _ rfl).trans (beam_in _), fun k => ?_⟩
  show x (10, .opt k) = total (rot30.run xenv back) x (on 3 k)
  have a : x (3, .opt k) = total (rot30.run xenv back) x (on 3 k) := by
    rw [hx 3 k (by decide), total_append, Mount.wire_total (w 3), if_neg (by decide), add_zero]
  rw [hx 10 k (by decide), total_append, run_elsewhere rot30 back (w _) (w _) (by decide) (by decide),
    Mount.wire_total (w 3), if_pos rfl, zero_add, a]

example : rot30.po_Fr.o ≠ rot30.po_Bk.o ∧ star rot30.rotate_deg = rot30.rotate_deg ∧
    ∃ x y : ℕ × Key Unit ℤ → ℂ, (∀ p, Within xenv x p) ∧ (∀ p, Within xenv y p) ∧
      x (0, .opt ⟨(), 1, .S, .lower⟩) = 2 ∧ y (0, .opt ⟨(), 1, .S, .lower⟩) = 2 ∧
      (∀ k, x (rot30.po_Bk.i, .opt k) = ((rot30.polarization xenv).map (fun c => c.into x (rot30.po_Bk.o, .opt k))).sum) ∧
      (∀ k, y (rot30.po_Bk.i, .opt k) = ((rot30.faraday xenv).map (fun c => c.into y (rot30.po_Bk.o, .opt k))).sum) := by
  obtain ⟨x, h1, h2, h3⟩ := rot30_exists (-1)
  obtain ⟨y, h4, h5, h6⟩ := rot30_exists 1
  exact ⟨by decide, star_ofNat 30, x, y, h1, h4, h2, h5, h3, h6⟩

/-! ## two mounted wave plates in a row (C74) -/

noncomputable def mount1 (cplgS cplgP : ℂ) : Mount ℕ ℂ :=
  ⟨⟨0, 31⟩, ⟨30, 1⟩, ⟨2, 29⟩, ⟨28, 3⟩, ⟨4, 27⟩, ⟨26, 5⟩, 30, cplgS, cplgP⟩

noncomputable def mount2 (cplgS cplgP : ℂ) : Mount ℕ ℂ :=
  ⟨⟨6, 25⟩, ⟨24, 7⟩, ⟨8, 23⟩, ⟨22, 9⟩, ⟨10, 21⟩, ⟨20, 11⟩, 30, cplgS, cplgP⟩

def mdepth (p : ℕ) : ℕ := if p < 20 then p else p - 20

theorem mount_elsewhere {x : ℕ × Key Unit ℤ → ℂ} (w : ∀ p, Within xenv x p) (m : Mount ℕ ℂ) {r : ℕ} (hr : r ∉ m.coord_Fr_po_Fr.o :: m.coord_Bk_po_Bk.o :: m.inner)
    (k : OKey Unit ℤ) : total (m.setup xenv) x (on r k) = 0 := by
  simp only [Mount.inner, List.mem_cons, List.not_mem_nil, or_false, not_or] at hr
  obtain ⟨h2, h12, h3, h4, h5, h6, h7, h8, h9, h10⟩ := hr
  rw [Mount.setup_total, Mount.wire_total (w _), Mount.wire_total (w _), Mount.wire_total (w _), Mount.wire_total (w _),
    if_neg (Ne.symm h5), if_neg (Ne.symm h3), if_neg (Ne.symm h9), if_neg (Ne.symm h7),
    run_elsewhere m.coord_Fr _ (w _) (w _) (Ne.symm h2) (Ne.symm h4),
    run_elsewhere m.coord_Bk _ (w _) (w _) (Ne.symm h10) (Ne.symm h12)]
  have : total (m.plate.setup xenv) x (on r k) = 0 := both_elsewhere (w _) (w _) _ (Ne.symm h6) (Ne.symm h8) k
  rw [this]
  ring

theorem mount_lifts (m : Mount ℕ ℂ) {d : ℕ → ℕ}
    (hd : [(m.coord_Fr_po_Fr.i, m.coord_Fr_po_Bk.o), (m.coord_Fr_po_Bk.o, m.plate_po_Fr.i), (m.plate_po_Fr.i, m.plate_po_Bk.o),
      (m.plate_po_Bk.o, m.coord_Bk_po_Fr.i), (m.coord_Bk_po_Fr.i, m.coord_Bk_po_Bk.o),
      (m.coord_Bk_po_Bk.i, m.coord_Bk_po_Fr.o), (m.coord_Bk_po_Fr.o, m.plate_po_Bk.i), (m.plate_po_Bk.i, m.plate_po_Fr.o),
      (m.plate_po_Fr.o, m.coord_Fr_po_Bk.i), (m.coord_Fr_po_Bk.i, m.coord_Fr_po_Fr.o)].all (fun e => d e.1 < d e.2) = true) :
    ∀ c ∈ m.setup xenv, Lifts d (keysAt [0, 1]) c := by
  simp only [List.all_cons, List.all_nil, Bool.and_true, Bool.and_eq_true, decide_eq_true_eq] at hd
  obtain ⟨h1, h2, h3, h4, h5, h6, h7, h8, h9, h10⟩ := hd
  intro c hc
  simp only [Mount.setup, List.flatten_cons, List.flatten_nil, List.append_nil, List.mem_append] at hc
  rcases hc with hc | hc | hc | hc | hc | hc | hc
  · exact lifts_run flip_keys m.coord_Fr _ h1 h10 rfl rfl c hc
  · exact lifts_both (env := xenv) (p := m.plate_po_Fr) (q := m.plate_po_Bk) h3 h8 rfl rfl _ c hc
  · exact lifts_run flip_keys m.coord_Bk _ h5 h6 rfl rfl c hc
  · exact lifts_wire h2 rfl c hc
  · exact lifts_wire h9 rfl c hc
  · exact lifts_wire h4 rfl c hc
  · exact lifts_wire h7 rfl c hc

/-- Light that enters both plates from the front and from the back. -/
theorem mounts_exist (cS cP : ℂ) : ∃ x : ℕ × Key Unit ℤ → ℂ, (mount1 cS cP).Fits xenv x ∧ (mount2 cS cP).Fits xenv x ∧
    x (0, .opt ⟨(), 1, .S, .lower⟩) = 2 ∧ x (20, .opt ⟨(), 1, .S, .lower⟩) = 2 ∧
    ∀ k, x ((mount2 cS cP).coord_Fr_po_Fr.i, .opt k) =
      (((mount1 cS cP).setup xenv).map (fun c => c.into x ((mount1 cS cP).coord_Bk_po_Bk.o, .opt k))).sum := by
  have hnet : ∀ c ∈ (mount1 cS cP).setup xenv ++ ((mount2 cS cP).setup xenv ++ (owire_setup xenv 5 6 ++ owire_setup xenv 25 26)),
      Lifts mdepth (keysAt [0, 1]) c := by
    intro c hc
    rw [List.mem_append, List.mem_append, List.mem_append] at hc
    rcases hc with hc | hc | hc | hc
    · exact mount_lifts _ rfl c hc
    · exact mount_lifts _ rfl c hc
    · exact lifts_wire (by decide) rfl c hc
    · exact lifts_wire (by decide) rfl c hc
  obtain ⟨x, h0, hk, hx⟩ := lifts_exists hnet (fun _ => beam) (fun _ k h => beam_out k h)
  have w := xwithin hk
  have n1 : (mount1 cS cP).nodes = [0, 31, 30, 1, 2, 29, 28, 3, 4, 27, 26, 5] := rfl
  have n2 : (mount2 cS cP).nodes = [6, 25, 24, 7, 8, 23, 22, 9, 10, 21, 20, 11] := rfl
  have i1 : (mount1 cS cP).inner = [30, 1, 2, 29, 28, 3, 4, 27] := rfl
  have i2 : (mount2 cS cP).inner = [24, 7, 8, 23, 22, 9, 10, 21] := rfl
  have e1 : ∀ p, p ∉ [31, 5, 30, 1, 2, 29, 28, 3, 4, 27] → ∀ k, total ((mount1 cS cP).setup xenv) x (on p k) = 0 :=
    fun p hp k => mount_elsewhere w _ (show p ∉ [31, 5, 30, 1, 2, 29, 28, 3, 4, 27] from hp) k
  have e2 : ∀ p, p ∉ [25, 11, 24, 7, 8, 23, 22, 9, 10, 21] → ∀ k, total ((mount2 cS cP).setup xenv) x (on p k) = 0 :=
    fun p hp k => mount_elsewhere w _ (show p ∉ [25, 11, 24, 7, 8, 23, 22, 9, 10, 21] from hp) k
  have m1 : ∀ p, 0 < mdepth p → p ∉ [25, 11, 24, 7, 8, 23, 22, 9, 10, 21] → 6 ≠ p → 26 ≠ p → ∀ k,
      x (p, .opt k) = total ((mount1 cS cP).setup xenv) x (on p k) := by
    intro p hd hp h6 h26 k
    rw [hx p k hd, total_append, total_append, total_append, e2 p hp, Mount.wire_total (w 5), Mount.wire_total (w 25),
      if_neg h6, if_neg h26]
    ring
  have m2 : ∀ p, 0 < mdepth p → p ∉ [31, 5, 30, 1, 2, 29, 28, 3, 4, 27] → 6 ≠ p → 26 ≠ p → ∀ k,
      x (p, .opt k) = total ((mount2 cS cP).setup xenv) x (on p k) := by
    intro p hd hp h6 h26 k
    rw [hx p k hd, total_append, total_append, total_append, e1 p hp, Mount.wire_total (w 5), Mount.wire_total (w 25),
      if_neg h6, if_neg h26]
    ring
  refine ⟨x, ⟨by rw [n1]; decide, fun p _ => w p, ?_⟩, ⟨by rw [n2]; decide, fun p _ => w p, ?_⟩, (h0 0 _ rfl).trans (beam_in _),
    (h0 20 _ rfl).trans (beam_in _), fun k => ?_⟩
  · rw [i1]
    intro p hp k
    refine m1 p ?_ ?_ ?_ ?_ k <;> revert p <;> decide
  · rw [i2]
    intro p hp k
    refine m2 p ?_ ?_ ?_ ?_ k <;> revert p <;> decide
  · show x (6, .opt k) = total ((mount1 cS cP).setup xenv) x (on 5 k)
    rw [← m1 5 (by decide) (by decide) (by decide) (by decide) k, hx 6 k (by decide), total_append, total_append, total_append,
      e1 6 (by decide), e2 6 (by decide), Mount.wire_total (w 5), Mount.wire_total (w 25), if_pos rfl, if_neg (by decide)]
    ring

example : (∃ x : ℕ × Key Unit ℤ → ℂ, (mount1 1 (-1)).Fits xenv x ∧ (mount2 1 (-1)).Fits xenv x ∧
    x (0, .opt ⟨(), 1, .S, .lower⟩) = 2 ∧ x (20, .opt ⟨(), 1, .S, .lower⟩) = 2 ∧
    ∀ k, x ((mount2 1 (-1)).coord_Fr_po_Fr.i, .opt k) =
      (((mount1 1 (-1)).setup xenv).map (fun c => c.into x ((mount1 1 (-1)).coord_Bk_po_Bk.o, .opt k))).sum) ∧
    (∃ x : ℕ × Key Unit ℤ → ℂ, (mount1 1 Complex.I).Fits xenv x ∧ (mount2 1 Complex.I).Fits xenv x ∧
    x (0, .opt ⟨(), 1, .S, .lower⟩) = 2 ∧ x (20, .opt ⟨(), 1, .S, .lower⟩) = 2 ∧
    ∀ k, x ((mount2 1 Complex.I).coord_Fr_po_Fr.i, .opt k) =
      (((mount1 1 Complex.I).setup xenv).map (fun c => c.into x ((mount1 1 Complex.I).coord_Bk_po_Bk.o, .opt k))).sum) ∧
    Complex.I * Complex.I = -1 ∧ star Complex.I = -Complex.I ∧ Complex.I * star Complex.I = 1 ∧
    star (mount1 1 Complex.I).rotate_deg = (mount1 1 Complex.I).rotate_deg :=
  ⟨mounts_exist 1 (-1), mounts_exist 1 Complex.I, Complex.I_mul_I, Complex.conj_I, by
    show Complex.I * (starRingEnd ℂ) Complex.I = 1
    rw [Complex.conj_I, mul_neg, Complex.I_mul_I, neg_neg], star_ofNat 30⟩

/-! ## selectors and circulators (C75, C76) -/

/-- Light at the ports 0 and 4, and no light at the other ports. -/
noncomputable def beam0 : ℕ × Key Unit ℤ → ℂ
  | (0, .opt k) => beam k
  | (4, .opt k) => beam k
  | _ => 0

theorem beam0_within (p : ℕ) : Within xenv beam0 p := by
  apply xwithin
  intro p k hk
  unfold beam0
  split
  · rename_i h
    cases h
    exact beam_out _ hk
  · rename_i h
    cases h
    exact beam_out _ hk
  · rfl

/-- A selector for the two frequencies; the setup succeeds, and it fails without the second port. -/
noncomputable def sel : List (Port ℕ × (OKey Unit ℤ → Bool)) :=
  [(⟨2, 3⟩, fun k => k.cls = 0), (⟨4, 5⟩, fun k => k.cls = 1)]

example : (∃ cs, selector_setup xenv ⟨0, 1⟩ sel = .ok cs) ∧ ((1 : ℕ) :: sel.map (fun pt => pt.1.o)).Nodup ∧
    (∀ p, Within xenv beam0 p) ∧ beam0 (0, .opt ⟨(), 1, .S, .lower⟩) = 2 ∧ beam0 (4, .opt ⟨(), 1, .S, .lower⟩) = 2 ∧
    (∃ k ∈ xenv.okeys 0, ((sel.take 1).filter (fun pt => pt.2 k)).length ≠ 1) := by
  refine ⟨?_, by decide, beam0_within, beam_in _, beam_in _, ⟨⟨(), 1, .S, .lower⟩, ?_, by decide⟩⟩
  · unfold selector_setup
    apply blocks_ok
    intro b hb
    rcases List.mem_append.1 hb with hb | hb
    · obtain ⟨k, hk, rfl⟩ := List.mem_map.1 hb
      have hk : k.cls ∈ ([0, 1] : List ℤ) := mem_keysAt.1 hk
      have h1 : (sel.filter (fun pt => pt.2 k)).length = 1 := by
        obtain ⟨⟨⟩, c, p, q⟩ := k
        simp only [List.mem_cons, List.not_mem_nil, or_false] at hk
        rcases hk with rfl | rfl <;> rfl
      rw [if_pos h1]
      exact ⟨_, rfl⟩
    · rw [List.mem_singleton] at hb
      exact ⟨_, hb⟩
  · exact mem_keysAt.2 (show (1 : ℤ) ∈ [0, 1] by decide)

example : [(1 : ℕ), 3, 5].Nodup ∧ (3 : ℕ) ≠ 4 ∧ (0 : ℕ) ≠ 4 ∧ (∀ p, Within xenv beam0 p) ∧
    (∀ n, n.1 ≠ 4 → beam0 n = (fun n => if n.1 = 4 then 0 else beam0 n) n) ∧ beam0 (4, .opt ⟨(), 1, .S, .lower⟩) = 2 :=
  ⟨by decide, by decide, by decide, beam0_within, fun n hn => (if_neg hn).symm, beam_in _⟩

example : ([⟨0, 1⟩, ⟨2, 3⟩, ⟨4, 5⟩] : List (Port ℕ)).map Port.o = [1, 3, 5] ∧ [(1 : ℕ), 3, 5].Nodup ∧
    (∀ p ∈ ([⟨0, 1⟩, ⟨2, 3⟩, ⟨4, 5⟩] : List (Port ℕ)), Within xenv beam0 p.i) ∧ beam0 (4, .opt ⟨(), 1, .S, .lower⟩) = 2 :=
  ⟨rfl, by decide, fun p _ => beam0_within p.i, beam_in _⟩

end Optics
