import Mathlib.Tactic.Abel
import Mathlib.Tactic.Tauto
import Mathlib.Tactic.Set
import Mathlib.Algebra.Star.BigOperators
import Verif.Circuit.NetBasic
import Verif.Optics.Basic
import Verif.Optics.Demo

/-!
# Photodiodes measure the power of the light (C65)
-/

set_option linter.unusedSectionVars false

namespace Optics
open Py Inject Circuit
open Signal (Balanced wave)

variable {P O K F : Type} [DecidableEq P] [DecidableEq O] [DecidableEq K] [AddCommGroup K] [Field F] [StarRing F]
  [DecidableEq F]
variable (env : OEnv P O K F)

theorem Quantum.conj_conj (q : Quantum) : q.conj.conj = q := by cases q <;> rfl

theorem OKey.conj_conj (k : OKey O K) : k.conj.conj = k := by
  cases k
  simp [OKey.conj, Quantum.conj_conj]

theorem OKey.conj_inj {k l : OKey O K} (h : k.conj = l.conj) : k = l := by
  rw [← k.conj_conj, h, l.conj_conj]

/-- The keys `a` of the lowering and `b` of the raising fields whose product oscillates at `δ`. -/
def Beat (δ : K) (a b : OKey O K) : Prop :=
  a.q = .lower ∧ b.q = .raise ∧ a.opt = b.opt ∧ a.pol = b.pol ∧ a.cls = b.cls + δ

instance (δ : K) (a b : OKey O K) : Decidable (Beat δ a b) := by unfold Beat; infer_instance

/-- The product of the fields at the frequency `δ`. -/
def beat (ks : List (OKey O K)) (y : OKey O K → F) (δ : K) : F :=
  ∑ a ∈ ks.toFinset, ∑ b ∈ ks.toFinset, if Beat δ a b then y a * y b else 0

/-- the sum over the detected keys that a detector forms -/
theorem ba_beat {ks : List (OKey O K)} (hn : ks.Nodup) (hconj : ∀ k ∈ ks, k.conj ∈ ks)
    (hr : ∀ k ∈ ks, env.reject k.cls = false) (m : OKey O K → Mod P F) (p out : P) (hp : ∀ k, (m k).pfrom.i = p)
    (x : P × Key O K → F) (hx : ∀ k, k ∉ ks → x (on p k) = 0) (δ : K) {cL cR : F}
    (hL : ∀ k, (m k).Stdcplg * (m k).BAcplg = cL) (hR : ∀ k, (m k).StdcplgC * (m k).BAcplgC = cR) :
    (ks.map (fun k => (m k).baTerm env k out x (sn out δ) δ)).sum =
      (cL + cR) / (if -δ = δ then 2 else 1) * beat ks (fun k => x (on p k)) δ := by
  classical
  set y : OKey O K → F := fun k => x (on p k) with hy
  set s : F := if -δ = δ then 2 else 1 with hs
  set c : Quantum → F := fun q => match q with | .lower => cL | .raise => cR with hc
  have hterm : ∀ k : OKey O K, (m k).baTerm env k out x (sn out δ) δ =
      c k.q / s * (y k.conj * y (k.at (k.cls + shift k.q δ))) := by
    intro k
    unfold Mod.baTerm
    by_cases h : env.reject (k.cls + shift k.q δ) = false
    · rw [if_pos ⟨h, rfl⟩, hp]
      cases k.q with
      | lower => simp only [Quantum.pick, hy, hL, hc]; ring
      | raise => simp only [Quantum.pick, hy, hR, hc]; ring
    · rw [if_neg (fun h' => h h'.1)]
      have : y (k.at (k.cls + shift k.q δ)) = 0 := by
        apply hx
        intro h'
        exact h (hr _ h')
      rw [this]
      ring
  have h1 : (ks.map (fun k => (m k).baTerm env k out x (sn out δ) δ)).sum =
      ∑ k ∈ ks.toFinset, c k.q / s * (y k.conj * y (k.at (k.cls + shift k.q δ))) := by
    rw [List.sum_toFinset _ hn]
    congr 1
    apply List.map_congr_left
    intro k _
    exact hterm k
  rw [h1]
  have hval : ∀ j : OKey O K, y j = ∑ a ∈ ks.toFinset, if a = j then y a else 0 := by
    intro j
    by_cases hj : j ∈ ks
    · rw [Finset.sum_ite_eq' ks.toFinset j y, if_pos (List.mem_toFinset.2 hj)]
    · rw [Finset.sum_ite_eq' ks.toFinset j y, if_neg (fun h => hj (List.mem_toFinset.1 h))]
      exact hx j hj
  have hsplit : ∑ k ∈ ks.toFinset, c k.q / s * (y k.conj * y (k.at (k.cls + shift k.q δ))) =
      ∑ k ∈ ks.toFinset, (∑ a ∈ ks.toFinset, cL / s * if Beat δ a k then y a * y k else 0) +
      ∑ k ∈ ks.toFinset, (∑ b ∈ ks.toFinset, cR / s * if Beat δ k b then y k * y b else 0) := by
    have hre : ∑ k ∈ ks.toFinset, c k.q / s * (y k.conj * y (k.at (k.cls + shift k.q δ))) =
        ∑ k ∈ ks.toFinset, c k.conj.q / s * (y k * y (k.conj.at (k.cls + shift k.conj.q δ))) := by
      refine Finset.sum_bij' (fun k _ => k.conj) (fun k _ => k.conj) ?_ ?_ ?_ ?_ ?_
      · intro k hk
        exact List.mem_toFinset.2 (hconj k (List.mem_toFinset.1 hk))
      · intro k hk
        exact List.mem_toFinset.2 (hconj k (List.mem_toFinset.1 hk))
      · intro k _; exact k.conj_conj
      · intro k _; exact k.conj_conj
      · intro k _
        rw [k.conj_conj]
        rfl
    rw [hre, ← Finset.sum_add_distrib]
    apply Finset.sum_congr rfl
    intro k _
    rw [hval (k.conj.at (k.cls + shift k.conj.q δ)), Finset.mul_sum, Finset.mul_sum, ← Finset.sum_add_distrib]
    apply Finset.sum_congr rfl
    intro a _
    obtain ⟨ao, ac, ap, aq⟩ := a
    obtain ⟨ko, kc, kp, kq⟩ := k
    have e1 : ∀ (u v : K), (v = u + -δ ↔ u = v + δ) := fun u v =>
      ⟨fun h => by rw [h]; abel, fun h => by rw [h]; abel⟩
    cases aq <;> cases kq <;>
      simp only [Beat, OKey.conj, OKey.at, Quantum.conj, shift, OKey.mk.injEq, reduceCtorEq, and_false, false_and,
        and_true, true_and, if_false, mul_zero, add_zero, zero_add, hc]
    · have : (ao = ko ∧ ac = kc + δ ∧ ap = kp) ↔ (ao = ko ∧ ap = kp ∧ ac = kc + δ) := by tauto
      simp only [this]
      split_ifs
      · ring
      · ring
    · have : (ao = ko ∧ ac = kc + -δ ∧ ap = kp) ↔ (ko = ao ∧ kp = ap ∧ kc = ac + δ) := by
        rw [e1, eq_comm (a := ao), eq_comm (a := ap)]; tauto
      simp only [this]
      split_ifs
      · ring
      · ring
  rw [hsplit, Finset.sum_comm, add_div, add_mul]
  unfold beat
  simp only [Finset.mul_sum]

/-- the amplitude a detector puts out at a key, when its couplings are made key by key -/
theorem detector_total (ks : List (OKey O K)) (m : OKey O K → Mod P F) (p Wpd : P) (hp : ∀ k, (m k).pfrom.i = p)
    (hn : ks.Nodup) (hconj : ∀ k ∈ ks, k.conj ∈ ks) (hr : ∀ k ∈ ks, env.reject k.cls = false)
    (hout : ∀ k, (m k).out_port_classical = some Wpd)
    (hin : ∀ k q, (m k).in_port_classical = some q → Balanced (env.skeys q)) (hW : Balanced (env.skeys Wpd))
    {cs : List (Coupling P (Key O K) F)} (h : blocks (ks.map (fun k => (m k).fill env k)) = .ok cs)
    (x : P × Key O K → F) (hx : ∀ k, k ∉ ks → x (on p k) = 0) {δ : K} (hδ : δ ∈ env.skeys Wpd) {cL cR : F}
    (hL : ∀ k, (m k).Stdcplg * (m k).BAcplg = cL) (hR : ∀ k, (m k).StdcplgC * (m k).BAcplgC = cR) :
    total cs x (sn Wpd δ) = (cL + cR) / (if -δ = δ then 2 else 1) * beat ks (fun k => x (on p k)) δ := by
  have hper : ∀ k ∈ ks, ∀ ds, (m k).fill env k = .ok ds →
      total ds x (sn Wpd δ) = (m k).baTerm env k Wpd x (sn Wpd δ) δ := by
    intro k _ ds hd
    obtain ⟨a, c, ha, hc, ht⟩ := fill_total env (m k) k hd
    rw [ht, cl_sig env (m k) k ha (hin k), through_sig, zero_add, zero_add, ba_total env (m k) k (hout k) hW hc]
    have hz : ∀ l, l ≠ δ → (m k).baTerm env k Wpd x (sn Wpd δ) l = 0 := by
      intro l hl
      unfold Mod.baTerm
      rw [if_neg]
      rintro ⟨_, h⟩
      injection h with _ h
      injection h with h
      exact hl h
    rw [← List.sum_toFinset _ hW.1, Finset.sum_eq_single δ (fun l _ hl => hz l hl)
      (fun h => absurd (List.mem_toFinset.2 hδ) h)]
  rw [blocks_map h hper, ba_beat env hn hconj hr m p Wpd hp x hx δ hL hR]

/-- **C65.**  At a fixed point the photodiode puts out, at a frequency `δ` other than zero, twice the sum of all products
of a lowering and a raising amplitude of the same carrier and polarization that lie `δ` apart; at zero frequency, once. -/
theorem C65_coefficient (h2 : (2 : F) ≠ 0) (ht : ∀ k : K, -k = k → k = 0) (po_Fr : Port P) (BA Wpd : P)
    (hn : (env.okeys po_Fr.i).Nodup)
    (hconj : ∀ k ∈ env.okeys po_Fr.i, ({ k with q := k.q.conj } : OKey O K) ∈ env.okeys po_Fr.i)
    (hr : ∀ k ∈ env.okeys po_Fr.i, env.reject k.cls = false)
    (hB : Balanced (env.skeys BA)) (hW : Balanced (env.skeys Wpd)) {cs : List (Coupling P (Key O K) F)}
    (h : pd_setup env po_Fr BA Wpd = .ok cs) (x : P × Key O K → F)
    (hx : ∀ k, k ∉ env.okeys po_Fr.i → x (po_Fr.i, .opt k) = 0) {δ : K} (hδ : δ ∈ env.skeys Wpd) :
    (cs.map (fun c => c.into x (Wpd, .sig δ))).sum =
      (if δ = 0 then 1 else 2) * ∑ a ∈ (env.okeys po_Fr.i).toFinset, ∑ b ∈ (env.okeys po_Fr.i).toFinset,
        if a.q = .lower ∧ b.q = .raise ∧ a.opt = b.opt ∧ a.pol = b.pol ∧ a.cls = b.cls + δ then
          x (po_Fr.i, .opt a) * x (po_Fr.i, .opt b) else 0 := by
  refine (detector_total env (env.okeys po_Fr.i)
    (fun _ => ⟨po_Fr, none, some BA, some Wpd, 1, 1, env.i, -env.i, 1, 1, true⟩) po_Fr.i Wpd (fun _ => rfl) hn hconj hr
    (fun _ => rfl) (by rintro _ q ⟨⟩; exact hB) hW h x hx hδ (fun _ => rfl) (fun _ => rfl)).trans ?_
  show _ = _ * beat (env.okeys po_Fr.i) (fun k => x (on po_Fr.i k)) δ
  by_cases hd : δ = 0
  · rw [if_pos hd, if_pos (by rw [hd, neg_zero]), mul_one, one_add_one_eq_two, div_self h2]
  · rw [if_neg hd, if_neg (fun h => hd (ht δ h)), mul_one, div_one, one_add_one_eq_two]

/-- The light of one carrier and polarization at a given time: `Σ L(f) e(f)` for the lowering fields and `Σ R(f) e(-f)` for
the raising fields. -/
def light (e : K → F) (ks : List (OKey O K)) (y : OKey O K → F) (mode : O × Pol) (q : Quantum) : F :=
  ∑ k ∈ ks.toFinset, if (k.opt, k.pol) = mode ∧ k.q = q then
    y k * e (match q with | .lower => k.cls | .raise => -k.cls) else 0

/-- **C65.**  The output of a photodiode is the power of the light at every time: the sum, over the carriers and
polarizations, of the light times its conjugate.  `e` stands for the values of the exponentials at a time; the output has a
key for every difference of two frequencies of the light. -/
theorem C65_power {e : K → F} (he0 : e 0 = 1) (he : ∀ k l, e (k + l) = e k * e l) (h2 : (2 : F) ≠ 0)
    (ht : ∀ k : K, -k = k → k = 0) (po_Fr : Port P) (BA Wpd : P) (hn : (env.okeys po_Fr.i).Nodup)
    (hconj : ∀ k ∈ env.okeys po_Fr.i, ({ k with q := k.q.conj } : OKey O K) ∈ env.okeys po_Fr.i)
    (hr : ∀ k ∈ env.okeys po_Fr.i, env.reject k.cls = false)
    (hB : Balanced (env.skeys BA)) (hW : Balanced (env.skeys Wpd)) {cs : List (Coupling P (Key O K) F)}
    (h : pd_setup env po_Fr BA Wpd = .ok cs) (x : P × Key O K → F)
    (hx : ∀ k, k ∉ env.okeys po_Fr.i → x (po_Fr.i, .opt k) = 0)
    (hall : ∀ a ∈ env.okeys po_Fr.i, ∀ b ∈ env.okeys po_Fr.i, a.opt = b.opt → a.pol = b.pol →
      a.cls - b.cls ∈ env.skeys Wpd)
    {modes : List (O × Pol)} (hm : modes.Nodup) (hmodes : ∀ k ∈ env.okeys po_Fr.i, (k.opt, k.pol) ∈ modes) :
    wave e (env.skeys Wpd) (fun δ => (cs.map (fun c => c.into x (Wpd, .sig δ))).sum) =
      (modes.map (fun md => light e (env.okeys po_Fr.i) (fun k => x (po_Fr.i, .opt k)) md .lower *
        light e (env.okeys po_Fr.i) (fun k => x (po_Fr.i, .opt k)) md .raise)).sum := by
  classical
  set ks := env.okeys po_Fr.i with hks
  set y : OKey O K → F := fun k => x (po_Fr.i, .opt k) with hy
  have h1 : wave e (env.skeys Wpd) (fun δ => (cs.map (fun c => c.into x (Wpd, .sig δ))).sum) =
      ∑ δ ∈ (env.skeys Wpd).toFinset, beat ks y δ * e δ := by
    unfold wave
    rw [List.sum_toFinset _ hW.1]
    congr 1
    apply List.map_congr_left
    intro δ hδ
    have := C65_coefficient env h2 ht po_Fr BA Wpd hn hconj hr hB hW h x hx hδ
    dsimp only
    rw [this]
    change (if δ = 0 then (if δ = 0 then 1 else 2) * beat ks y δ else (if δ = 0 then 1 else 2) * beat ks y δ * e δ / 2) = _
    by_cases hd : δ = 0
    · rw [if_pos hd, if_pos hd, hd, he0, one_mul, mul_one]
    · rw [if_neg hd, if_neg hd]
      field_simp
  have h3 : ∀ a ∈ ks.toFinset, ∀ b ∈ ks.toFinset,
      (∑ δ ∈ (env.skeys Wpd).toFinset, (if Beat δ a b then y a * y b else 0) * e δ) =
      ∑ md ∈ modes.toFinset, (if (a.opt, a.pol) = md ∧ a.q = .lower then y a * e a.cls else 0) *
        (if (b.opt, b.pol) = md ∧ b.q = .raise then y b * e (-b.cls) else 0) := by
    intro a ha b hb
    have ha' := List.mem_toFinset.1 ha
    have hb' := List.mem_toFinset.1 hb
    by_cases hab : a.q = .lower ∧ b.q = .raise ∧ a.opt = b.opt ∧ a.pol = b.pol
    · obtain ⟨q1, q2, o1, p1⟩ := hab
      rw [Finset.sum_eq_single (a.cls - b.cls), Finset.sum_eq_single (a.opt, a.pol)]
      · rw [if_pos ⟨q1, q2, o1, p1, by abel⟩, if_pos ⟨rfl, q1⟩, if_pos ⟨by rw [o1, p1], q2⟩, sub_eq_add_neg, he]
        ring
      · intro md _ hne
        rw [if_neg (fun h => hne h.1.symm), zero_mul]
      · intro hne
        exact absurd (List.mem_toFinset.2 (hmodes a ha')) hne
      · intro δ _ hne
        rw [if_neg, zero_mul]
        rintro ⟨_, _, _, _, h⟩
        exact hne (by rw [h]; abel)
      · intro hne
        exact absurd (List.mem_toFinset.2 (hall a ha' b hb' o1 p1)) hne
    · rw [Finset.sum_eq_zero, Finset.sum_eq_zero]
      · intro md _
        by_cases h1 : (a.opt, a.pol) = md ∧ a.q = .lower
        · rw [if_neg (c := (b.opt, b.pol) = md ∧ b.q = .raise), mul_zero]
          rintro ⟨h4, h5⟩
          have h6 := h1.1.trans h4.symm
          injection h6 with h7 h8
          exact hab ⟨h1.2, h5, h7, h8⟩
        · rw [if_neg h1, zero_mul]
      · intro δ _
        rw [if_neg, zero_mul]
        rintro ⟨h1, h2, h3, h4, _⟩
        exact hab ⟨h1, h2, h3, h4⟩
  rw [h1, ← List.sum_toFinset _ hm]
  calc ∑ δ ∈ (env.skeys Wpd).toFinset, beat ks y δ * e δ
      = ∑ δ ∈ (env.skeys Wpd).toFinset, ∑ a ∈ ks.toFinset, ∑ b ∈ ks.toFinset,
          (if Beat δ a b then y a * y b else 0) * e δ := by
        apply Finset.sum_congr rfl
        intro δ _
        unfold beat
        rw [Finset.sum_mul]
        apply Finset.sum_congr rfl
        intro a _
        rw [Finset.sum_mul]
    _ = ∑ a ∈ ks.toFinset, ∑ b ∈ ks.toFinset, ∑ δ ∈ (env.skeys Wpd).toFinset,
          (if Beat δ a b then y a * y b else 0) * e δ := by
        rw [Finset.sum_comm]
        apply Finset.sum_congr rfl
        intro a _
        rw [Finset.sum_comm]
    _ = ∑ a ∈ ks.toFinset, ∑ b ∈ ks.toFinset, ∑ md ∈ modes.toFinset,
          (if (a.opt, a.pol) = md ∧ a.q = .lower then y a * e a.cls else 0) *
          (if (b.opt, b.pol) = md ∧ b.q = .raise then y b * e (-b.cls) else 0) := by
        apply Finset.sum_congr rfl
        intro a ha
        apply Finset.sum_congr rfl
        intro b hb
        exact h3 a ha b hb
    _ = ∑ md ∈ modes.toFinset, ∑ a ∈ ks.toFinset, ∑ b ∈ ks.toFinset,
          (if (a.opt, a.pol) = md ∧ a.q = .lower then y a * e a.cls else 0) *
          (if (b.opt, b.pol) = md ∧ b.q = .raise then y b * e (-b.cls) else 0) := by
        symm
        rw [Finset.sum_comm]
        apply Finset.sum_congr rfl
        intro a _
        rw [Finset.sum_comm]
    _ = _ := by
        apply Finset.sum_congr rfl
        intro md _
        unfold light
        rw [Finset.sum_mul]
        apply Finset.sum_congr rfl
        intro a _
        rw [Finset.mul_sum]

/-- a raising light that is the conjugate of the lowering light -/
theorem light_star {e : K → F} (hstar : ∀ k, star (e k) = e (-k)) {ks : List (OKey O K)}
    (hconj : ∀ k ∈ ks, k.conj ∈ ks) {y : OKey O K → F} (hy : ∀ k, y k.conj = star (y k)) (md : O × Pol) :
    light e ks y md .raise = star (light e ks y md .lower) := by
  unfold light
  rw [star_sum]
  refine Finset.sum_bij' (fun k _ => k.conj) (fun k _ => k.conj) ?_ ?_ ?_ ?_ ?_
  · intro k hk
    exact List.mem_toFinset.2 (hconj k (List.mem_toFinset.1 hk))
  · intro k hk
    exact List.mem_toFinset.2 (hconj k (List.mem_toFinset.1 hk))
  · intro k _; exact k.conj_conj
  · intro k _; exact k.conj_conj
  · intro k _
    obtain ⟨o, c, p, q⟩ := k
    rw [apply_ite star, star_zero]
    cases q with
    | lower =>
      simp only [OKey.conj, Quantum.conj, reduceCtorEq, and_false, if_false]
    | raise =>
      simp only [OKey.conj, Quantum.conj, and_true]
      congr 1
      have := hy ⟨o, c, p, .raise⟩
      simp only [OKey.conj, Quantum.conj] at this
      rw [star_mul', hstar, this, star_star]

/-- **C65**, real light: when the raising amplitudes are the conjugates of the lowering ones (C64), the output is the sum of
the squared moduli of the light. -/
theorem C65_real {e : K → F} (he0 : e 0 = 1) (he : ∀ k l, e (k + l) = e k * e l) (hstar : ∀ k, star (e k) = e (-k))
    (h2 : (2 : F) ≠ 0) (ht : ∀ k : K, -k = k → k = 0) (po_Fr : Port P) (BA Wpd : P) (hn : (env.okeys po_Fr.i).Nodup)
    (hconj : ∀ k ∈ env.okeys po_Fr.i, ({ k with q := k.q.conj } : OKey O K) ∈ env.okeys po_Fr.i)
    (hr : ∀ k ∈ env.okeys po_Fr.i, env.reject k.cls = false)
    (hB : Balanced (env.skeys BA)) (hW : Balanced (env.skeys Wpd)) {cs : List (Coupling P (Key O K) F)}
    (h : pd_setup env po_Fr BA Wpd = .ok cs) (x : P × Key O K → F)
    (hx : ∀ k, k ∉ env.okeys po_Fr.i → x (po_Fr.i, .opt k) = 0)
    (hall : ∀ a ∈ env.okeys po_Fr.i, ∀ b ∈ env.okeys po_Fr.i, a.opt = b.opt → a.pol = b.pol →
      a.cls - b.cls ∈ env.skeys Wpd)
    (hreal : ∀ k : OKey O K, x (po_Fr.i, .opt { k with q := k.q.conj }) = star (x (po_Fr.i, .opt k)))
    {modes : List (O × Pol)} (hm : modes.Nodup) (hmodes : ∀ k ∈ env.okeys po_Fr.i, (k.opt, k.pol) ∈ modes) :
    wave e (env.skeys Wpd) (fun δ => (cs.map (fun c => c.into x (Wpd, .sig δ))).sum) =
      (modes.map (fun md => light e (env.okeys po_Fr.i) (fun k => x (po_Fr.i, .opt k)) md .lower *
        star (light e (env.okeys po_Fr.i) (fun k => x (po_Fr.i, .opt k)) md .lower))).sum := by
  rw [C65_power env he0 he h2 ht po_Fr BA Wpd hn hconj hr hB hW h x hx hall hm hmodes]
  congr 1
  apply List.map_congr_left
  intro md _
  rw [light_star hstar hconj (y := fun k => x (po_Fr.i, .opt k)) hreal]

/-- **C65** for `MagicPD`: it measures the same and lets the light pass. -/
theorem C65_magic (h2 : (2 : F) ≠ 0) (ht : ∀ k : K, -k = k → k = 0) (po_Fr po_Bk : Port P) (Wpd : P)
    (ho : po_Fr.o ≠ po_Bk.o) (hn : (env.okeys po_Fr.i).Nodup) (hnB : (env.okeys po_Bk.i).Nodup)
    (hconj : ∀ k ∈ env.okeys po_Fr.i, ({ k with q := k.q.conj } : OKey O K) ∈ env.okeys po_Fr.i)
    (hr : ∀ k ∈ env.okeys po_Fr.i, env.reject k.cls = false)
    (hW : Balanced (env.skeys Wpd)) {cs : List (Coupling P (Key O K) F)}
    (h : magic_pd_setup env po_Fr po_Bk Wpd = .ok cs) (x : P × Key O K → F)
    (hx : ∀ k, k ∉ env.okeys po_Fr.i → x (po_Fr.i, .opt k) = 0)
    (hxB : ∀ k, k ∉ env.okeys po_Bk.i → x (po_Bk.i, .opt k) = 0) :
    (∀ δ ∈ env.skeys Wpd, (cs.map (fun c => c.into x (Wpd, .sig δ))).sum =
      (if δ = 0 then 1 else 2) * ∑ a ∈ (env.okeys po_Fr.i).toFinset, ∑ b ∈ (env.okeys po_Fr.i).toFinset,
        if a.q = .lower ∧ b.q = .raise ∧ a.opt = b.opt ∧ a.pol = b.pol ∧ a.cls = b.cls + δ then
          x (po_Fr.i, .opt a) * x (po_Fr.i, .opt b) else 0) ∧
    ∀ k, (cs.map (fun c => c.into x (po_Bk.o, .opt k))).sum = x (po_Fr.i, .opt k) ∧
      (cs.map (fun c => c.into x (po_Fr.o, .opt k))).sum = x (po_Bk.i, .opt k) := by
  set m : Mod P F := ⟨po_Fr, some po_Bk, none, some Wpd, 1, 1, 0, 0, 1, 1, true⟩ with hm
  obtain ⟨a, b, ha, hb, rfl⟩ := blocks_append h
  obtain ⟨b', ds, hb', hds, rfl⟩ := blocks_cons hb
  obtain rfl := blocks_nil hds
  injection hb' with hb'
  subst hb'
  rw [List.append_nil]
  have hback : ∀ t, total ((env.okeys po_Bk.i).map
      (fun k => Coupling.edge (on po_Bk.i k) (on po_Fr.o k) (1 : F))) x t =
      ((env.okeys po_Bk.i).map (fun k => if on po_Fr.o k = t then 1 * x (on po_Bk.i k) else 0)).sum := fun t =>
    total_map _ _ x t
  have hpass : ∀ (k : OKey O K) (p : P), total a x (on p k) = if p = po_Bk.o then x (on po_Fr.i k) else 0 := by
    intro k p
    have hper : ∀ j ∈ env.okeys po_Fr.i, ∀ ds, m.fill env j = .ok ds → total ds x (on p k) =
        if on po_Bk.o j = on p k then x (on po_Fr.i j) else 0 := by
      intro j _ ds hd
      obtain ⟨u, c, hu, hc, htot⟩ := fill_total env m j hd
      have hu' : u = [] := by
        unfold Mod.cl at hu
        injection hu with hu
        exact hu.symm
      rw [htot, hu', total_nil, ba_opt env m j hc (by rintro p ⟨⟩; exact hW), through_total m j rfl rfl, zero_add,
        add_zero]
      unfold Mod.throughTerm
      congr 1
      cases j.q <;> exact one_mul _
    rw [blocks_map ha hper]
    by_cases hp : p = po_Bk.o
    · subst hp
      rw [if_pos rfl, ← List.sum_toFinset _ hn]
      by_cases hk : k ∈ env.okeys po_Fr.i
      · rw [Finset.sum_eq_single k, if_pos rfl]
        · intro j _ hj
          rw [if_neg]
          intro h
          injection h with _ h
          injection h with h
          exact hj h
        · intro h
          exact absurd (List.mem_toFinset.2 hk) h
      · rw [hx k hk, Finset.sum_eq_zero]
        intro j hj
        rw [if_neg]
        intro h
        injection h with _ h
        injection h with h
        exact hk (h ▸ List.mem_toFinset.1 hj)
    · rw [if_neg hp]
      apply List.sum_eq_zero
      intro v hv
      obtain ⟨j, _, rfl⟩ := List.mem_map.1 hv
      rw [if_neg]
      intro h
      exact hp (congrArg Prod.fst h).symm
  refine ⟨fun δ hδ => ?_, fun k => ⟨?_, ?_⟩⟩
  · refine (total_append _ _ x _).trans ?_
    have h0 : total ((env.okeys po_Bk.i).map
        (fun k => Coupling.edge (on po_Bk.i k) (on po_Fr.o k) (1 : F))) x (Wpd, .sig δ) = 0 := by
      rw [hback]
      apply List.sum_eq_zero
      intro v hv
      obtain ⟨j, _, rfl⟩ := List.mem_map.1 hv
      rw [if_neg]
      intro h
      cases (congrArg Prod.snd h)
    rw [h0, add_zero]
    refine (detector_total env (env.okeys po_Fr.i) (fun _ => m) po_Fr.i Wpd (fun _ => rfl) hn hconj hr
      (fun _ => rfl) (by rintro _ q ⟨⟩) hW ha x hx hδ (fun _ => rfl) (fun _ => rfl)).trans ?_
    show _ = _ * beat (env.okeys po_Fr.i) (fun k => x (on po_Fr.i k)) δ
    show (m.Stdcplg * m.BAcplg + m.StdcplgC * m.BAcplgC) / _ * _ = _
    by_cases hd : δ = 0
    · rw [if_pos hd, if_pos (by rw [hd, neg_zero]), hm, mul_one, one_add_one_eq_two, div_self h2]
    · rw [if_neg hd, if_neg (fun h => hd (ht δ h)), hm, mul_one, div_one, one_add_one_eq_two]
  · refine (total_append _ _ x _).trans ?_
    have h0 : total ((env.okeys po_Bk.i).map
        (fun k => Coupling.edge (on po_Bk.i k) (on po_Fr.o k) (1 : F))) x (on po_Bk.o k) = 0 := by
      rw [hback]
      apply List.sum_eq_zero
      intro v hv
      obtain ⟨j, _, rfl⟩ := List.mem_map.1 hv
      rw [if_neg]
      intro h
      exact ho (congrArg Prod.fst h)
    exact (congrArg₂ (· + ·) (hpass k po_Bk.o) h0).trans (by rw [if_pos rfl, add_zero])
  · refine (total_append _ _ x _).trans ?_
    have h0 : total ((env.okeys po_Bk.i).map
        (fun k => Coupling.edge (on po_Bk.i k) (on po_Fr.o k) (1 : F))) x (on po_Fr.o k) = x (on po_Bk.i k) := by
      rw [hback, ← List.sum_toFinset _ hnB]
      by_cases hk : k ∈ env.okeys po_Bk.i
      · rw [Finset.sum_eq_single k, if_pos rfl, one_mul]
        · intro j _ hj
          rw [if_neg]
          intro h
          injection h with _ h
          injection h with h
          exact hj h
        · intro h
          exact absurd (List.mem_toFinset.2 hk) h
      · rw [hxB k hk, Finset.sum_eq_zero]
        intro j hj
        rw [if_neg]
        intro h
        injection h with _ h
        injection h with h
        exact hk (h ▸ List.mem_toFinset.1 hj)
    exact (congrArg₂ (· + ·) (hpass k po_Fr.o) h0).trans (by rw [if_neg ho, zero_add])

/-! ## example: two frequencies on a photodiode -/

/-- Light at the frequencies 0 and 1; the photodiode measures at 0 and ±1. -/
noncomputable abbrev penv : OEnv ℕ Unit ℤ ℂ :=
  demo (fun _ => keysAt [0, 1]) (fun p => if p = 4 then [0, 1, -1] else [0]) (fun _ => false)

/-- The amplitude `i` for the lowering and `-i` for the raising fields, at both frequencies and polarizations. -/
noncomputable def plight : ℕ × Key Unit ℤ → ℂ
  | (0, .opt k) => if k ∈ keysAt [0, 1] then (match k.q with | .lower => Complex.I | .raise => -Complex.I) else 0
  | _ => 0

example : ∃ cs ds, pd_setup penv ⟨0, 1⟩ 5 4 = .ok cs ∧ magic_pd_setup penv ⟨0, 1⟩ ⟨2, 3⟩ 4 = .ok ds ∧
    (penv.okeys 0).Nodup ∧ (∀ k ∈ penv.okeys 0, ({ k with q := k.q.conj } : OKey Unit ℤ) ∈ penv.okeys 0) ∧
    (∀ k ∈ penv.okeys 0, penv.reject k.cls = false) ∧ Balanced (penv.skeys 5) ∧ Balanced (penv.skeys 4) ∧
    (∀ k, k ∉ penv.okeys 0 → plight (0, .opt k) = 0) ∧
    (∀ a ∈ penv.okeys 0, ∀ b ∈ penv.okeys 0, a.opt = b.opt → a.pol = b.pol → a.cls - b.cls ∈ penv.skeys 4) ∧
    (∀ k : OKey Unit ℤ, plight (0, .opt { k with q := k.q.conj }) = star (plight (0, .opt k))) ∧
    ([((), Pol.S), ((), Pol.P)] : List (Unit × Pol)).Nodup ∧
    (∀ k ∈ penv.okeys 0, (k.opt, k.pol) ∈ ([((), Pol.S), ((), Pol.P)] : List (Unit × Pol))) ∧
    (∀ k, k ∉ penv.okeys 2 → plight (2, .opt k) = 0) ∧ tick 0 = 1 ∧ (∀ k l, tick (k + l) = tick k * tick l) ∧
    (∀ k, star (tick k) = tick (-k)) ∧ plight (0, .opt ⟨(), 1, .S, .lower⟩) = Complex.I := by
  have hB : Balanced (penv.skeys 5) := show Balanced [0] from ⟨by decide, by decide⟩
  have hW : Balanced (penv.skeys 4) := show Balanced [0, 1, -1] from ⟨by decide, by decide⟩
  have h1 : ∃ cs, pd_setup penv ⟨0, 1⟩ 5 4 = .ok cs := by
    apply blocks_ok
    intro b hb
    obtain ⟨k, _, rfl⟩ := List.mem_map.1 hb
    exact fill_ok _ _ _ (by rintro p ⟨⟩; exact hB.2) (by rintro p ⟨⟩; exact hW.2)
  have h2 : ∃ cs, magic_pd_setup penv ⟨0, 1⟩ ⟨2, 3⟩ 4 = .ok cs := by
    apply blocks_ok
    intro b hb
    rw [List.mem_append, List.mem_singleton] at hb
    rcases hb with hb | rfl
    · obtain ⟨k, _, rfl⟩ := List.mem_map.1 hb
      exact fill_ok _ _ _ (by rintro p ⟨⟩) (by rintro p ⟨⟩; exact hW.2)
    · exact ⟨_, rfl⟩
  obtain ⟨cs, hcs⟩ := h1
  obtain ⟨ds, hds⟩ := h2
  refine ⟨cs, ds, hcs, hds, keysAt_nodup (by decide), keysAt_conj _, fun _ _ => rfl, hB, hW, ?_, ?_, ?_, by decide, ?_,
    fun _ _ => rfl, tick_zero, tick_add, tick_star, ?_⟩
  · intro k hk
    exact if_neg hk
  · intro a ha b hb _ _
    replace ha := mem_keysAt.1 ha
    replace hb := mem_keysAt.1 hb
    show a.cls - b.cls ∈ ([0, 1, -1] : List ℤ)
    simp only [List.mem_cons, List.not_mem_nil, or_false] at ha hb ⊢
    omega
  · intro k
    have hm : ({ k with q := k.q.conj } : OKey Unit ℤ) ∈ keysAt [0, 1] ↔ k ∈ keysAt [0, 1] := by
      rw [mem_keysAt, mem_keysAt]
    unfold plight
    simp only [hm]
    split_ifs
    · cases hq : k.q <;> simp [Quantum.conj]
    · exact (star_zero _).symm
  · rintro ⟨⟨⟩, c, p, q⟩ _
    cases p <;> simp
  · have : (⟨(), 1, .S, .lower⟩ : OKey Unit ℤ) ∈ keysAt [0, 1] := mem_keysAt.2 (by decide)
    exact if_pos (e := (0 : ℂ)) this

end Optics
