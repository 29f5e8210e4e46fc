import Verif.Optics.Examples
import Verif.Optics.Isolator

/-!
# Example for C132 and C133: light that enters an isolator from the front
-/

namespace Optics
open Py Inject Circuit
open Signal (Balanced)

/-- The nodes of an isolator: of the selectors, of the mirrors, of the rotator and of the plate.  The first argument tells the second beamsplitter
from the first one, the last one outputs from inputs. -/
inductive IP
  | po (b : Bool) (s : Side) (o : Bool)
  | sel (b : Bool) (s : Side) (p : Pol) (o : Bool)
  | mir (b : Bool) (p : Pol) (a : MPort) (o : Bool)
  | z (b : Bool) (p : Pol) (f : Bool)
  | rot (back o : Bool)
  | mnt (n : ℕ)
deriving DecidableEq

noncomputable abbrev ienv : OEnv IP Unit ℤ ℂ := demo (fun _ => keysAt [0, 1]) (fun _ => [0, 1, -1]) (fun _ => false)

theorem ienv_angles : Angles ienv where
  cos_zero := Complex.cos_zero
  sin_zero := Complex.sin_zero
  cos_pi := Complex.cos_pi
  sin_pi := Complex.sin_pi
  cos_half := Complex.cos_pi_div_two
  sin_half := Complex.sin_pi_div_two
  cos_neg := Complex.cos_neg
  sin_neg := Complex.sin_neg
  cos_add := Complex.cos_add
  sin_add := Complex.sin_add

noncomputable def ipbs (b : Bool) : Pbs IP ℂ where
  pass_polarization := .S
  selection_defect := 0
  rejection_defect := 0
  select_loss := 0
  reject_loss := 0
  AOI_deg := 45
  po s := ⟨.po b s false, .po b s true⟩
  sel s p := ⟨.sel b s p false, .sel b s p true⟩
  port p a := ⟨.mir b p a false, .mir b p a true⟩
  Zd p := .z b p false
  ZF p := .z b p true

noncomputable def imount (θ : ℂ) : Mount IP ℂ :=
  ⟨⟨.mnt 0, .mnt 31⟩, ⟨.mnt 30, .mnt 1⟩, ⟨.mnt 2, .mnt 29⟩, ⟨.mnt 28, .mnt 3⟩, ⟨.mnt 4, .mnt 27⟩, ⟨.mnt 26, .mnt 5⟩, θ, 1, -1⟩

/-- The isolator with a rotator of `φ` degrees. -/
noncomputable def iso (φ : ℂ) : Isolator IP ℂ where
  pol_BS_in := ipbs false
  faraday := ⟨⟨.rot false false, .rot false true⟩, ⟨.rot true false, .rot true true⟩, φ⟩
  lambda2 := imount (-1 * 45 / 2)
  pol_BS_out := ipbs true

theorem iso_build : Isolator.build false none .S .P (iso 45) = iso 0 := by
  simp [Isolator.build, isolator_pols, iso, ipbs, imount]

/-- The angle of the rotator. -/
noncomputable def iφ (φ : ℂ) : ℂ := φ / 180 * Real.pi

/-- The angle of the plate. -/
noncomputable def iθ : ℂ := -1 * 45 / 2 / 180 * Real.pi

/-- The light that enters the two beamsplitters from the front. -/
noncomputable def iu (φ : ℂ) (b : Bool) (k : OKey Unit ℤ) : ℂ :=
  match b with
  | false => beam k
  | true => k.pol.pick (Complex.cos (2 * iθ) * Complex.cos (iφ φ) - Complex.sin (2 * iθ) * Complex.sin (iφ φ))
      (-(Complex.sin (2 * iθ) * Complex.cos (iφ φ)) - Complex.cos (2 * iθ) * Complex.sin (iφ φ)) * beam k

/-- What leaves the mirrors. -/
noncomputable def imo (φ : ℂ) (b : Bool) (p : Pol) (a : MPort) (k : OKey Unit ℤ) : ℂ :=
  if k.pol = p ∧ (p = .S ∧ a = .BkA ∨ p = .P ∧ a = .FrB) then iu φ b k else 0

/-- The light outside of the plate. -/
noncomputable def ig (φ : ℂ) : IP → OKey Unit ℤ → ℂ
  | .po b s false, k => if s = .FrA then iu φ b k else 0
  | .po b s true, k => imo φ b .S s.port k + imo φ b .P s.port k
  | .sel b s p true, k => if s = .FrA ∧ k.pol = p then iu φ b k else 0
  | .sel b s p false, k => imo φ b p s.port k
  | .mir b p a false, k => if a = .FrA ∧ k.pol = p then iu φ b k else 0
  | .mir b p a true, k => imo φ b p a k
  | .z _ _ _, _ => 0
  | .rot false false, k => if k.pol = .S then beam k else 0
  | .rot true true, k => k.pol.pick (Complex.cos (iφ φ)) (Complex.sin (iφ φ)) * beam k
  | .rot _ _, _ => 0
  | .mnt 0, k => k.pol.pick (Complex.cos (iφ φ)) (Complex.sin (iφ φ)) * beam k
  | .mnt _, _ => 0

theorem iu_out {φ : ℂ} {b : Bool} {k : OKey Unit ℤ} (h : k ∉ keysAt [0, 1]) : iu φ b k = 0 := by
  cases b
  · exact beam_out k h
  · simp only [iu, beam_out k h, mul_zero]

theorem ig_out {φ : ℂ} {p : IP} {k : OKey Unit ℤ} (h : k ∉ keysAt [0, 1]) : ig φ p k = 0 := by
  unfold ig
  split <;> simp only [imo, iu_out h, beam_out k h, mul_zero, ite_self, add_zero]

def idepth : IP → ℕ
  | .mnt n => if n < 20 then n else n - 26
  | _ => 0

theorem mount_lifts' {P : Type} [DecidableEq P] {env : OEnv P Unit ℤ ℂ} (he : ∀ p, env.okeys p = keysAt [0, 1]) (m : Mount P ℂ) {d : P → ℕ}
    (hd : [(m.coord_Fr_po_Fr.i, m.coord_Fr_po_Bk.o), (m.coord_Fr_po_Bk.o, m.plate_po_Fr.i), (m.plate_po_Fr.i, m.plate_po_Bk.o),
      (m.plate_po_Bk.o, m.coord_Bk_po_Fr.i), (m.coord_Bk_po_Fr.i, m.coord_Bk_po_Bk.o),
      (m.coord_Bk_po_Bk.i, m.coord_Bk_po_Fr.o), (m.coord_Bk_po_Fr.o, m.plate_po_Bk.i), (m.plate_po_Bk.i, m.plate_po_Fr.o),
      (m.plate_po_Fr.o, m.coord_Fr_po_Bk.i), (m.coord_Fr_po_Bk.i, m.coord_Fr_po_Fr.o)].all (fun e => d e.1 < d e.2) = true) :
    ∀ c ∈ m.setup env, Lifts d (keysAt [0, 1]) c := by
  simp only [List.all_cons, List.all_nil, Bool.and_true, Bool.and_eq_true, decide_eq_true_eq] at hd
  obtain ⟨h1, h2, h3, h4, h5, h6, h7, h8, h9, h10⟩ := hd
  intro c hc
  simp only [Mount.setup, List.flatten_cons, List.flatten_nil, List.append_nil, List.mem_append] at hc
  rcases hc with hc | hc | hc | hc | hc | hc | hc
  · exact lifts_run flip_keys m.coord_Fr _ h1 h10 (he _) (he _) c hc
  · exact lifts_both (env := env) (p := m.plate_po_Fr) (q := m.plate_po_Bk) h3 h8 (he _) (he _) _ c hc
  · exact lifts_run flip_keys m.coord_Bk _ h5 h6 (he _) (he _) c hc
  · exact lifts_wire h2 (he _) c hc
  · exact lifts_wire h9 (he _) c hc
  · exact lifts_wire h4 (he _) c hc
  · exact lifts_wire h7 (he _) c hc

/-- The light outside of the plate has a continuation inside. -/
theorem iso_field (φ : ℂ) : ∃ x : IP × Key Unit ℤ → ℂ, (∀ p k, idepth p = 0 → x (p, .opt k) = ig φ p k) ∧
    (∀ p l, idepth p = 0 → x (p, .sig l) = 0) ∧
    (∀ p, Within ienv x p) ∧ ∀ p k, 0 < idepth p → x (p, .opt k) = total ((imount (-1 * 45 / 2)).setup ienv) x (on p k) := by
  have hl := mount_lifts' (env := ienv) (fun _ => rfl) (imount (-1 * 45 / 2)) (d := idepth) rfl
  obtain ⟨x, h0, h1⟩ := feed_exists (d := fun n : IP × Key Unit ℤ => idepth n.1) (cs := (imount (-1 * 45 / 2)).setup ienv)
    (by
      intro c hc
      obtain ⟨p, j, r, k, v, rfl, hlt, _⟩ := hl c hc
      exact ahead_edge hlt)
    (fun n => match n with | (p, .opt k) => ig φ p k | (_, .sig _) => 0)
  have hout : ∀ p k, k ∉ keysAt [0, 1] → x (p, .opt k) = 0 := by
    intro p k hk
    rcases Nat.eq_zero_or_pos (idepth p) with hp | hp
    · rw [h0 (p, .opt k) hp]
      exact ig_out hk
    · rw [h1 (p, .opt k) hp]
      apply List.sum_eq_zero
      intro a ha
      obtain ⟨c, hc, rfl⟩ := List.mem_map.1 ha
      obtain ⟨p', j, r, k', v, rfl, _, hk'⟩ := hl c hc
      rw [into_edge, if_neg]
      intro e
      injection e with _ e
      injection e with e
      exact hk (e ▸ hk')
  exact ⟨x, fun p k hp => h0 (p, .opt k) hp, fun p l hp => h0 (p, .sig l) hp,
    fun p => ⟨keysAt_nodup (by decide), fun k hk => hout p k hk⟩, fun p k hp => h1 (p, .opt k) hp⟩

theorem ipbs_fits {φ : ℂ} {x : IP × Key Unit ℤ → ℂ} (h0 : ∀ p k, idepth p = 0 → x (p, .opt k) = ig φ p k)
    (hs : ∀ p l, idepth p = 0 → x (p, .sig l) = 0) (hw : ∀ p, Within ienv x p) (b : Bool) : (ipbs b).Fits ienv x where
  aoi := by simp [ipbs]
  sel s := by
    have hok : ∃ cs, selector_setup ienv ((ipbs b).po s) ((ipbs b).port_map s) = .ok cs := by
      unfold selector_setup
      apply blocks_ok
      intro c hc
      rcases List.mem_append.1 hc with hc | hc
      · obtain ⟨k, hk, rfl⟩ := List.mem_map.1 hc
        have h1 : (((ipbs b).port_map s).filter (fun pt => pt.2 k)).length = 1 := by
          obtain ⟨⟨⟩, c, p, q⟩ := k
          cases p <;> rfl
        rw [if_pos h1]
        exact ⟨_, rfl⟩
      · rw [List.mem_singleton] at hc
        exact ⟨_, hc⟩
    obtain ⟨cs, hcs⟩ := hok
    obtain ⟨_, h2, h3⟩ := C75_select hcs (by simp [Pbs.port_map, ipbs]) (hw _) (fun pt _ => hw _)
    refine ⟨cs, hcs, fun k => ?_, fun p k => ?_⟩
    · rw [h3]
      simp only [Pbs.port_map, List.map_cons, List.map_nil, List.sum_cons, List.sum_nil, add_zero, ipbs]
      rw [h0 _ _ rfl, h0 _ _ rfl, h0 _ _ rfl]
      rfl
    · cases p
      · rw [h2 ((ipbs b).sel s .S, fun k => k.pol == .S) (by simp [Pbs.port_map])]
        simp only [ipbs]
        rw [h0 _ _ rfl, h0 _ _ rfl]
        by_cases hF : s = .FrA <;> by_cases hk : k.pol = .S <;> simp [ig, hF, hk]
      · rw [h2 ((ipbs b).sel s .P, fun k => k.pol == .P) (by simp [Pbs.port_map])]
        simp only [ipbs]
        rw [h0 _ _ rfl, h0 _ _ rfl]
        by_cases hF : s = .FrA <;> by_cases hk : k.pol = .P <;> simp [ig, hF, hk]
  nodup s := by simp [ipbs]
  within s := ⟨hw _, fun _ => hw _⟩
  mir p := by
    have hst : ((ipbs b).mirror p).Still ienv x :=
      { inj := fun a c h => by simpa [ipbs, Pbs.mirror] using h
        nodup := fun _ => keysAt_nodup (by decide)
        Zd := show Balanced [0, 1, -1] from ⟨by decide, by decide⟩
        ZF := show Balanced [0, 1, -1] from ⟨by decide, by decide⟩
        sqrt0 := csqrt_zero
        outside := fun a k hk => (hw _).2 k hk
        silent := fun l => hs _ l rfl }
    obtain ⟨cs, hcs⟩ := Mirror.setup_ok (m := (ipbs b).mirror p) ienv hst.Zd.2 hst.ZF.2
    refine ⟨cs, hcs, fun s k => ?_⟩
    obtain ⟨e1, e2, e3, e4⟩ := Mirror.C67_scatter ienv hst (show (45 : ℂ) ≠ 0 by norm_num) rfl rfl rfl rfl rfl hcs k
    have htn : ∀ q, ((ipbs b).mirror p).turn ienv ((ipbs b).mirror p).phase_rad q = 1 := fun q => by
      simp [Mirror.turn, Pbs.mirror]
    have hfl : (if ((ipbs b).mirror p).flip_sign = true then (-1 : ℂ) else 1) = 1 := by simp [Pbs.mirror]
    rw [htn, hfl, show ((ipbs b).mirror p).backscatter_phase_rad = ((ipbs b).mirror p).phase_rad from rfl, htn] at e1 e2 e3 e4
    have s0 : ienv.sqrt 0 = 0 := csqrt_zero
    have s1 : ienv.sqrt 1 = 1 := csqrt_one
    have port : ∀ a, ((ipbs b).mirror p).port a = ⟨.mir b p a false, .mir b p a true⟩ := fun _ => rfl
    have val : ∀ a, x (.mir b p a false, .opt k) = if a = .FrA ∧ k.pol = p then iu φ b k else 0 := fun a => h0 _ _ rfl
    simp only [port, val] at e1 e2 e3 e4
    cases s
    · refine (h0 _ _ rfl).trans (Eq.trans ?_ e1.symm)
      cases p <;> simp [ig, imo, Side.port, Pbs.mirror, ipbs, s0, s1]
    · refine (h0 _ _ rfl).trans (Eq.trans ?_ e2.symm)
      cases p <;> simp [ig, imo, Side.port, Pbs.mirror, ipbs, s0, s1]
    · refine (h0 _ _ rfl).trans (Eq.trans ?_ e3.symm)
      cases p <;> simp [ig, imo, Side.port, Pbs.mirror, ipbs, s0, s1]
    · refine (h0 _ _ rfl).trans (Eq.trans ?_ e4.symm)
      cases p <;> simp [ig, imo, Side.port, Pbs.mirror, ipbs, s0, s1]
  still p :=
    { inj := fun a c h => by simpa [ipbs, Pbs.mirror] using h
      nodup := fun _ => keysAt_nodup (by decide)
      Zd := show Balanced [0, 1, -1] from ⟨by decide, by decide⟩
      ZF := show Balanced [0, 1, -1] from ⟨by decide, by decide⟩
      sqrt0 := csqrt_zero
      outside := fun a k hk => (hw _).2 k hk
      silent := fun l => hs _ l rfl }
  bond s p k := by
    refine ⟨(h0 (.mir b p s.port false) k rfl).trans (Eq.trans ?_ (h0 (.sel b s p true) k rfl).symm),
      (h0 (.sel b s p false) k rfl).trans (h0 (.mir b p s.port true) k rfl).symm⟩
    cases s <;> simp [ig, Side.port]
  vac p s k hk := by
    refine (h0 _ _ rfl).trans ?_
    cases s <;> simp [ig, Side.loss, ipbs]

/-- There is light that enters an isolator from the front, with any rotator. -/
theorem iso_exists (φ : ℂ) : ∃ x : IP × Key Unit ℤ → ℂ, (iso φ).Fits ienv x ∧
    x (((iso φ).pol_BS_in.po .FrA).i, .opt ⟨(), 1, .S, .lower⟩) = 2 ∧
    x (((iso φ).pol_BS_in.po .FrA).i, .opt ⟨(), 1, .P, .lower⟩) = 2 := by
  obtain ⟨x, h0, hs, hw, h1⟩ := iso_field φ
  have hfl : ∀ (c : ℤ) (q : Quantum) (p p' : Pol), beam ⟨(), c, p, q⟩ = beam ⟨(), c, p', q⟩ := by
    intro c q p p'
    unfold beam
    simp only [mem_keysAt]
  have hpl : (imount (-1 * 45 / 2)).Fits ienv x := by
    refine ⟨by decide, fun p _ => hw p, fun p hp k => h1 p k ?_⟩
    simp only [Mount.inner, imount, List.mem_cons, List.not_mem_nil, or_false] at hp
    rcases hp with rfl | rfl | rfl | rfl | rfl | rfl | rfl | rfl <;> decide
  have hmo : ∀ n, n = 31 ∨ n = 5 → Follows ((imount (-1 * 45 / 2)).setup ienv) x (.mnt n) := by
    intro n hn k
    exact h1 _ k (by rcases hn with rfl | rfl <;> decide)
  have m26 : ∀ k, x (.mnt 26, .opt k) = 0 := fun k => h0 _ _ rfl
  have m0 : ∀ k, x (.mnt 0, .opt k) = k.pol.pick (Complex.cos (iφ φ)) (Complex.sin (iφ φ)) * beam k := fun k => h0 _ _ rfl
  have m5 : ∀ k, x (.mnt 5, .opt k) = iu φ true k := by
    rintro ⟨⟨⟩, c, p, q⟩
    obtain ⟨f1, f2⟩ := Mount.C74_half ienv_angles (imount (-1 * 45 / 2)) rfl rfl hpl (θ := iθ) rfl () c q (Or.inl rfl)
    have r : ∀ k, x (.mnt 5, .opt k) = (((imount (-1 * 45 / 2)).setup ienv).map (fun c => c.into x (.mnt 5, .opt k))).sum :=
      hmo 5 (Or.inr rfl)
    have i0 : ∀ k, x ((imount (-1 * 45 / 2)).coord_Fr_po_Fr.i, .opt k) = _ := m0
    rw [r]
    cases p
    · refine f1.trans ?_
      rw [i0, i0, hfl c q .P .S]
      simp only [Pol.pick, iu]
      show Complex.cos _ * _ - Complex.sin _ * _ = _
      ring
    · refine f2.trans ?_
      rw [i0, i0, hfl c q .S .P]
      simp only [Pol.pick, iu]
      show -(Complex.sin _ * _) - Complex.cos _ * _ = _
      ring
  have m31 : ∀ k, x (.mnt 31, .opt k) = 0 := by
    rintro ⟨⟨⟩, c, p, q⟩
    obtain ⟨f1, f2⟩ := Mount.C74_half ienv_angles (imount (-1 * 45 / 2)) rfl rfl hpl (θ := iθ) rfl () c q (Or.inr rfl)
    have r : ∀ k, x (.mnt 31, .opt k) = (((imount (-1 * 45 / 2)).setup ienv).map (fun c => c.into x (.mnt 31, .opt k))).sum :=
      hmo 31 (Or.inl rfl)
    have i0 : ∀ k, x ((imount (-1 * 45 / 2)).coord_Bk_po_Bk.i, .opt k) = 0 := m26
    rw [r]
    cases p
    · refine f1.trans ?_
      rw [i0, i0]; ring
    · refine f2.trans ?_
      rw [i0, i0]; ring
  have hc : ∀ z, ienv.cos z = Complex.cos z := fun _ => rfl
  have hsn : ∀ z, ienv.sin z = Complex.sin z := fun _ => rfl
  have hrn : (iso φ).faraday.po_Fr.o ≠ (iso φ).faraday.po_Bk.o := by simp [iso]
  have hr := fun c q => C73_turn ienv_angles (x := x) (iso φ).faraday hrn (hw _) (hw _) (θ := iφ φ) rfl () c q
  have ri : ∀ k, x ((iso φ).faraday.po_Fr.i, .opt k) = if k.pol = .S then beam k else 0 := fun k => h0 _ _ rfl
  have rb : ∀ k, x ((iso φ).faraday.po_Bk.i, .opt k) = 0 := fun k => h0 _ _ rfl
  refine ⟨x, ⟨ipbs_fits h0 hs hw false, ipbs_fits h0 hs hw true, hpl, ⟨hmo 31 (Or.inl rfl), hmo 5 (Or.inr rfl)⟩,
    ⟨?_, ?_⟩, hrn, ⟨hw _, hw _⟩, ⟨fun k => ⟨?_, ?_⟩, fun k => ⟨?_, ?_⟩, fun k => ⟨?_, ?_⟩⟩, fun k => ⟨?_, ?_⟩⟩,
    (h0 _ _ rfl).trans ?_, (h0 _ _ rfl).trans ?_⟩
  · rintro ⟨⟨⟩, c, p, q⟩
    obtain ⟨_, _, _, e4, e5⟩ := hr c q
    refine (h0 _ _ rfl).trans ?_
    cases p
    · rw [e4, rb, rb]; simp [ig, iso]
    · rw [e5, rb, rb]; simp [ig, iso]
  · rintro ⟨⟨⟩, c, p, q⟩
    obtain ⟨e1, _, _, _, _⟩ := hr c q
    obtain ⟨e2, e3⟩ := e1 ((iso φ).faraday.faraday ienv) (by simp)
    refine (h0 _ _ rfl).trans ?_
    cases p
    · rw [e2, ri, ri]; simp [ig, Pol.pick, iso, hc]
    · rw [e3, ri, ri]; simp [ig, Pol.pick, iso, hsn, hfl c q .P .S]
  · refine (h0 _ _ rfl).trans (Eq.trans ?_ (h0 _ _ rfl).symm)
    simp [ig, imo, Side.port, iu, iso, ipbs]
  · refine (h0 (.po false .BkA false) k rfl).trans (Eq.trans ?_ (h0 (.rot false true) k rfl).symm)
    simp [ig]
  · exact (m0 k).trans (h0 (.rot true true) k rfl).symm
  · exact (h0 _ _ rfl).trans (m31 k).symm
  · exact (h0 _ _ rfl).trans (m5 k).symm
  · refine (m26 k).trans (Eq.trans ?_ (h0 _ _ rfl).symm)
    simp [ig, imo, Side.port, iso, ipbs]
  · exact h0 _ _ rfl
  · exact h0 _ _ rfl
  · show (if Side.FrA = Side.FrA then beam ⟨(), 1, .S, .lower⟩ else 0) = 2
    rw [if_pos rfl]; exact beam_in _
  · show (if Side.FrA = Side.FrA then beam ⟨(), 1, .P, .lower⟩ else 0) = 2
    rw [if_pos rfl]; exact beam_in _

/-- Light that enters the isolator of the code, one whose rotator turns, and a single beamsplitter. -/
example : Angles ienv ∧ ienv.sqrt 1 = 1 ∧ iso 0 = Isolator.build false none .S .P (iso 45) ∧ (iso 45).Ideal .S ∧
    (iso 45).faraday.rotate_deg = 45 ∧ (iso 45).lambda2.rotate_deg = -45 / 2 ∧
    ∀ φ ∈ [(0 : ℂ), 45], ∃ x : IP × Key Unit ℤ → ℂ, (iso φ).Fits ienv x ∧ (ipbs false).Fits ienv x ∧
      x (((iso φ).pol_BS_in.po .FrA).i, .opt ⟨(), 1, .S, .lower⟩) = 2 ∧
      x (((iso φ).pol_BS_in.po .FrA).i, .opt ⟨(), 1, .P, .lower⟩) = 2 := by
  refine ⟨ienv_angles, csqrt_one, iso_build.symm, ⟨⟨rfl, rfl, rfl, rfl, rfl⟩, ⟨rfl, rfl, rfl, rfl, rfl⟩, rfl, rfl⟩, rfl, ?_, fun φ _ => ?_⟩
  · show (-1 * 45 / 2 : ℂ) = -45 / 2
    norm_num
  · obtain ⟨x, h, h2, h3⟩ := iso_exists φ
    exact ⟨x, h, h.pbs_in, h2, h3⟩

example : ∃ b : Pbs IP ℝ, Pol.S = b.pass_polarization ∧ b.selection_defect < b.reject_loss ∧ Pol.P ≠ b.pass_polarization ∧
    b.rejection_defect < b.select_loss :=
  ⟨⟨.S, 0, 0, 1/10, 1/10, 45, fun _ => ⟨.mnt 0, .mnt 1⟩, fun _ _ => ⟨.mnt 0, .mnt 1⟩, fun _ _ => ⟨.mnt 0, .mnt 1⟩, fun _ => .mnt 0,
    fun _ => .mnt 0⟩, rfl, by norm_num, by decide, by norm_num⟩

end Optics
