import Mathlib.Analysis.SpecialFunctions.Trigonometric.Basic
import Verif.Optics.SqueezerParams
import Verif.Optics.Passive
import Verif.Optics.Demo
import Verif.Shot.Basic

/-!
# Fields, commutators and noise of the squeezer (C115)
-/

set_option linter.unusedSectionVars false

namespace Optics
open Py Inject Circuit
open Shot (amp)

section generic
variable {P O K F : Type} [DecidableEq P] [DecidableEq O] [DecidableEq K] [AddCommGroup K] [Field F] [StarRing F]
  [DecidableEq F]
variable {env : OEnv P O K F} (e : EZSqz P O K F)

theorem EZSqz.reflect_reflect (k : OKey O K) : e.reflect (e.reflect k) = k := by
  obtain ⟨o, c, p, q⟩ := k
  unfold EZSqz.reflect
  congr 1
  · show e.ckey + e.ckey - (e.ckey + e.ckey - c) = c
    abel
  · cases q <;> rfl

theorem EZSqz.reflect_ne (k : OKey O K) : e.reflect k ≠ k := by
  obtain ⟨o, c, p, q⟩ := k
  intro h
  have : q.conj = q := congrArg OKey.q h
  cases q <;> cases this

/-- one kind of coupling, for the keys of one optical frequency -/
private theorem sum_moved {ks : List (OKey O K)} (hn : ks.Nodup) (o : O) (a b : P) {f : OKey O K → OKey O K} (hf : ∀ k, f (f k) = k)
    (ho : ∀ k, (f k).opt = k.opt) (v : OKey O K → F) {x : P × Key O K → F} (hx : ∀ k, k ∉ ks → x (on a k) = 0) (r : P)
    (j : OKey O K) :
    (ks.map (fun k => if k.opt ≠ o then 0 else (Coupling.edge (on a k) (on b (f k)) (v k)).into x (on r j))).sum =
      if b = r ∧ j.opt = o then v (f j) * x (on a (f j)) else 0 := by
  rw [← List.sum_toFinset _ hn]
  rw [Finset.sum_eq_single (f j)]
  · rw [ho, into_edge, hf]
    by_cases h1 : j.opt = o <;> by_cases h2 : b = r <;> simp [h1, h2]
  · intro k _ hk
    split_ifs with h
    · rfl
    · rw [into_edge, if_neg]
      intro h
      injection h with _ h
      injection h with h
      exact hk (by rw [← h, hf])
  · intro h
    rw [into_edge, hf, hx _ (fun h' => h (List.mem_toFinset.2 h')), mul_zero]
    simp

private theorem sum_add4 {α : Type} (l : List α) (f g h i : α → F) :
    (l.map (fun k => f k + (g k + (h k + i k)))).sum = (l.map f).sum + ((l.map g).sum + ((l.map h).sum + (l.map i).sum)) := by
  induction l with
  | nil => simp
  | cons a l ih =>
    simp only [List.map_cons, List.sum_cons, ih]
    ring

private theorem port_total {x : P × Key O K → F} {port tport lport : Port P} (hw : Within env x port.i)
    (hl : ∀ k, k ∉ env.okeys port.i → x (on lport.i k) = 0) (r : P) (j : OKey O K) :
    total (e.port_setup env port tport lport) x (on r j) =
      (if tport.o = r ∧ j.opt = e.okey then e.gain_1 * env.sqrt (1 - e.loss) * x (on port.i j) else 0) +
      ((if tport.o = r ∧ j.opt = e.okey then
        e.phase env j.q.conj * e.gain_2 * env.sqrt (1 - e.loss) * x (on port.i (e.reflect j)) else 0) +
      ((if lport.o = r ∧ j.opt = e.okey then env.sqrt e.loss * x (on port.i j) else 0) +
      (if port.o = r ∧ j.opt = e.okey then env.sqrt e.loss * x (on lport.i j) else 0))) := by
  unfold EZSqz.port_setup
  rw [total_flatMap]
  have h1 := sum_moved hw.1 e.okey port.i tport.o (f := id) (fun _ => rfl) (fun _ => rfl)
    (fun _ => e.gain_1 * env.sqrt (1 - e.loss)) hw.2 r j
  have h3 := sum_moved hw.1 e.okey port.i lport.o (f := id) (fun _ => rfl) (fun _ => rfl) (fun _ => env.sqrt e.loss) hw.2 r j
  have h4 := sum_moved hw.1 e.okey lport.i port.o (f := id) (fun _ => rfl) (fun _ => rfl) (fun _ => env.sqrt e.loss) hl r j
  simp only [id] at h1 h3 h4
  have h2 := sum_moved hw.1 e.okey port.i tport.o (f := e.reflect) e.reflect_reflect (fun _ => rfl)
    (fun k => e.phase env k.q * e.gain_2 * env.sqrt (1 - e.loss)) hw.2 r j
  rw [show (e.reflect j).q = j.q.conj from rfl] at h2
  rw [← h1, ← h2, ← h3, ← h4, ← sum_add4]
  congr 1
  apply List.map_congr_left
  intro k _
  by_cases h : k.opt = e.okey
  · simp only [h, ne_eq, not_true_eq_false, if_false, total_cons, total_nil, add_zero]
  · simp only [h, ne_eq, not_false_eq_true, if_true, total_nil, add_zero]

/-- The ports of the squeezer are different ones. -/
structure EZSqz.Apart : Prop where
  outs : [e.po_Fr.o, e.po_Bk.o, e.LFr.o, e.LBk.o].Nodup
  ins : [e.po_Fr.i, e.po_Bk.i, e.LFr.i, e.LBk.i].Nodup

/-- There is light at the listed keys only. -/
structure EZSqz.Lit (env : OEnv P O K F) (x : P × Key O K → F) : Prop where
  fr : Within env x e.po_Fr.i
  bk : Within env x e.po_Bk.i
  lfr : Within env x e.LFr.i
  lbk : Within env x e.LBk.i
  lfr' : ∀ k, k ∉ env.okeys e.po_Fr.i → x (on e.LFr.i k) = 0
  lbk' : ∀ k, k ∉ env.okeys e.po_Bk.i → x (on e.LBk.i k) = 0

/-- **C115**: the light that leaves the squeezer. -/
theorem C115_fields (hp : e.Apart) {x : P × Key O K → F} (hx : e.Lit env x) (k : OKey O K) :
    (total (e.setup env) x (on e.po_Bk.o k) = if k.opt = e.okey then
        env.sqrt (1 - e.loss) * (e.gain_1 * x (on e.po_Fr.i k) + e.phase env k.q.conj * e.gain_2 * x (on e.po_Fr.i (e.reflect k))) +
          env.sqrt e.loss * x (on e.LBk.i k) else 0) ∧
    (total (e.setup env) x (on e.po_Fr.o k) = if k.opt = e.okey then
        env.sqrt (1 - e.loss) * (e.gain_1 * x (on e.po_Bk.i k) + e.phase env k.q.conj * e.gain_2 * x (on e.po_Bk.i (e.reflect k))) +
          env.sqrt e.loss * x (on e.LFr.i k) else 0) ∧
    (total (e.setup env) x (on e.LFr.o k) =
      (if k.opt = e.okey then env.sqrt e.loss * x (on e.po_Fr.i k) else 0) + env.sqrt (1 - e.loss) * x (on e.LFr.i k)) ∧
    (total (e.setup env) x (on e.LBk.o k) =
      (if k.opt = e.okey then env.sqrt e.loss * x (on e.po_Bk.i k) else 0) + env.sqrt (1 - e.loss) * x (on e.LBk.i k)) := by
  have ho := hp.outs
  simp only [List.nodup_cons, List.mem_cons, List.not_mem_nil, or_false, not_or] at ho
  obtain ⟨⟨h1, h2, h3⟩, ⟨h4, h5⟩, h6, -⟩ := ho
  unfold EZSqz.setup EZSqz.loss_setup
  simp only [total_append, port_total e hx.fr hx.lfr', port_total e hx.bk hx.lbk', kept_total hx.lfr, kept_total hx.lbk]
  refine ⟨?_, ?_, ?_, ?_⟩ <;> by_cases hk : k.opt = e.okey <;>
    simp [hk, h1, h2, h3, h4, h5, h6, Ne.symm h1, Ne.symm h2, Ne.symm h3, Ne.symm h4, Ne.symm h5, Ne.symm h6] <;> ring

end generic

section complex
variable {P O K : Type} [DecidableEq P] [DecidableEq O] [DecidableEq K] [AddCommGroup K]

/-- The symbols have their meaning, for the square root on nonnegative numbers. -/
structure Plain (env : OEnv P O K ℂ) : Prop where
  exp : env.exp = Complex.exp
  i2pi : env.i2pi = 2 * Real.pi * Complex.I
  sqrt : ∀ r : ℝ, 0 ≤ r → env.sqrt r = (Real.sqrt r : ℂ)

/-- A squeezer with these real gains, loss and angle (in radians). -/
structure EZSqz.With (e : EZSqz P O K ℂ) (g1 g2 l φ : ℝ) : Prop where
  gain_1 : e.gain_1 = g1
  gain_2 : e.gain_2 = g2
  loss : e.loss = l
  phi : e.phi_sqz_deg = ((φ * 180 / Real.pi : ℝ) : ℂ)

/-- The commutator of a field with its adjoint, up to a factor: one for annihilation and minus one for creation operators. -/
def sgn : Quantum → ℂ
  | .lower => 1
  | .raise => -1

/-- The commutator of the field at `t` with the adjoint of the field at `t'` when the fields at the ports `ins` are independent. -/
noncomputable def commutator (cs : List (Coupling P (Key O K) ℂ)) (ins : List P) (ks : List (OKey O K)) (t t' : P × Key O K) : ℂ :=
  ∑ d ∈ ins.toFinset ×ˢ ks.toFinset, sgn d.2.q * amp cs (on d.1 d.2) t * star (amp cs (on d.1 d.2) t')

/-- The variance, relative to that of vacuum, of the quadrature at angle `θ` made of the fields at the keys `k` and `k'` of the port
`b`, when there is vacuum at the ports `ins`: all sidebands of all ports contribute independently and equally. -/
noncomputable def quadVariance (cs : List (Coupling P (Key O K) ℂ)) (ins : List P) (ks : List (OKey O K)) (b : P) (k k' : OKey O K)
    (θ : ℝ) : ℝ :=
  (∑ d ∈ ins.toFinset ×ˢ ks.toFinset, Complex.normSq (Complex.exp (-(θ * Complex.I)) * amp cs (on d.1 d.2) (on b k) +
    Complex.exp (θ * Complex.I) * amp cs (on d.1 d.2) (on b k'))) / 2

/-- The input ports. -/
def EZSqz.ins (e : EZSqz P O K ℂ) : List P := [e.po_Fr.i, e.po_Bk.i, e.LFr.i, e.LBk.i]

variable {env : OEnv P O K ℂ} {e : EZSqz P O K ℂ} {g1 g2 l φ : ℝ}

private theorem phase_eq (he : Plain env) (hw : e.With g1 g2 l φ) :
    e.phase env .raise = Complex.exp (2 * φ * Complex.I) ∧ e.phase env .lower = Complex.exp (-(2 * φ * Complex.I)) := by
  have hpi : (Real.pi : ℂ) ≠ 0 := by exact_mod_cast Real.pi_ne_zero
  constructor <;>
  · unfold EZSqz.phase
    simp only [he.exp, he.i2pi, hw.phi]
    congr 1
    push_cast
    field_simp
    ring

/-- **C115**: along the angle of the squeezer the quadrature is amplified by the sum of the gains, across it by their difference,
and the loss mixes in the field of the loss port. -/
theorem C115_quadratures (he : Plain env) (hp : e.Apart) (hw : e.With g1 g2 l φ) (hl : 0 ≤ l) (hl1 : l ≤ 1)
    {x : P × Key O K → ℂ} (hx : e.Lit env x) (k : OKey O K) (hk : k.opt = e.okey) (hq : k.q = .lower) (θ : ℝ) (g : ℝ)
    (hθ : (θ = φ ∧ g = g1 + g2) ∨ (θ = φ + Real.pi / 2 ∧ g = g1 - g2)) :
    let X := fun (y : P × Key O K → ℂ) (p : P) =>
      Complex.exp (-(θ * Complex.I)) * y (on p k) + Complex.exp (θ * Complex.I) * y (on p (e.reflect k))
    X (total (e.setup env) x) e.po_Bk.o = Real.sqrt (1 - l) * g * X x e.po_Fr.i + Real.sqrt l * X x e.LBk.i ∧
    X (total (e.setup env) x) e.po_Fr.o = Real.sqrt (1 - l) * g * X x e.po_Bk.i + Real.sqrt l * X x e.LFr.i := by
  intro X
  obtain ⟨r1, r2⟩ := phase_eq he hw
  have hs1 : env.sqrt (1 - e.loss) = (Real.sqrt (1 - l) : ℂ) := by
    rw [hw.loss, ← he.sqrt (1 - l) (by linarith)]; push_cast; rfl
  have hs2 : env.sqrt e.loss = (Real.sqrt l : ℂ) := by rw [hw.loss, he.sqrt l hl]
  have hk' : (e.reflect k).opt = e.okey := hk
  have hq' : (e.reflect k).q = .raise := by show k.q.conj = _; rw [hq]; rfl
  obtain ⟨a1, a2, -, -⟩ := C115_fields e hp hx k
  obtain ⟨b1, b2, -, -⟩ := C115_fields e hp hx (e.reflect k)
  rw [if_pos hk, hq] at a1 a2
  rw [if_pos hk', hq', e.reflect_reflect] at b1 b2
  simp only [Quantum.conj, r1, r2, hs1, hs2, hw.gain_1, hw.gain_2] at a1 a2 b1 b2
  have key : ∀ u v : ℂ, Complex.exp (-(θ * Complex.I)) * (g1 * u + Complex.exp (2 * φ * Complex.I) * g2 * v) +
      Complex.exp (θ * Complex.I) * (g1 * v + Complex.exp (-(2 * φ * Complex.I)) * g2 * u) =
      g * (Complex.exp (-(θ * Complex.I)) * u + Complex.exp (θ * Complex.I) * v) := by
    intro u v
    rcases hθ with ⟨rfl, rfl⟩ | ⟨rfl, rfl⟩
    · have e1 : Complex.exp (-(θ * Complex.I)) * Complex.exp (2 * θ * Complex.I) = Complex.exp (θ * Complex.I) := by
        rw [← Complex.exp_add]; congr 1; ring
      have e2 : Complex.exp (θ * Complex.I) * Complex.exp (-(2 * θ * Complex.I)) = Complex.exp (-(θ * Complex.I)) := by
        rw [← Complex.exp_add]; congr 1; ring
      push_cast
      linear_combination (g2 * v) * e1 + (g2 * u) * e2
    · have h0 : Complex.exp (Real.pi * Complex.I) = -1 := Complex.exp_pi_mul_I
      have h0' : Complex.exp (-(Real.pi * Complex.I)) = -1 := by rw [Complex.exp_neg, h0]; norm_num
      have e1 : Complex.exp (-(((φ + Real.pi / 2 : ℝ) : ℂ) * Complex.I)) * Complex.exp (2 * φ * Complex.I) =
          -Complex.exp (((φ + Real.pi / 2 : ℝ) : ℂ) * Complex.I) := by
        rw [← Complex.exp_add, show -(((φ + Real.pi / 2 : ℝ) : ℂ) * Complex.I) + 2 * φ * Complex.I =
          ((φ + Real.pi / 2 : ℝ) : ℂ) * Complex.I + -(Real.pi * Complex.I) by push_cast; ring, Complex.exp_add, h0']
        ring
      have e2 : Complex.exp (((φ + Real.pi / 2 : ℝ) : ℂ) * Complex.I) * Complex.exp (-(2 * φ * Complex.I)) =
          -Complex.exp (-(((φ + Real.pi / 2 : ℝ) : ℂ) * Complex.I)) := by
        rw [← Complex.exp_add, show ((φ + Real.pi / 2 : ℝ) : ℂ) * Complex.I + -(2 * φ * Complex.I) =
          -(((φ + Real.pi / 2 : ℝ) : ℂ) * Complex.I) + Real.pi * Complex.I by push_cast; ring, Complex.exp_add, h0]
        ring
      push_cast at e1 e2 ⊢
      linear_combination (g2 * v) * e1 + (g2 * u) * e2
  constructor
  · show Complex.exp (-(θ * Complex.I)) * total (e.setup env) x (on e.po_Bk.o k) +
      Complex.exp (θ * Complex.I) * total (e.setup env) x (on e.po_Bk.o (e.reflect k)) = _
    rw [a1, b1]
    linear_combination (Real.sqrt (1 - l) : ℂ) * key (x (on e.po_Fr.i k)) (x (on e.po_Fr.i (e.reflect k)))
  · show Complex.exp (-(θ * Complex.I)) * total (e.setup env) x (on e.po_Fr.o k) +
      Complex.exp (θ * Complex.I) * total (e.setup env) x (on e.po_Fr.o (e.reflect k)) = _
    rw [a2, b2]
    linear_combination (Real.sqrt (1 - l) : ℂ) * key (x (on e.po_Bk.i k)) (x (on e.po_Bk.i (e.reflect k)))

/-- All input ports of the squeezer have the keys `ks`, and with a key of the optical frequency of the squeezer the reflected one. -/
structure EZSqz.Keyed (env : OEnv P O K ℂ) (e : EZSqz P O K ℂ) (ks : List (OKey O K)) : Prop where
  keys : ∀ p ∈ e.ins, env.okeys p = ks
  nodup : ks.Nodup
  closed : ∀ k ∈ ks, k.opt = e.okey → e.reflect k ∈ ks

/-- An output port with the input port and the loss port its light comes from. -/
def EZSqz.Side (e : EZSqz P O K ℂ) (b a c : P) : Prop :=
  (b = e.po_Bk.o ∧ a = e.po_Fr.i ∧ c = e.LBk.i) ∨ (b = e.po_Fr.o ∧ a = e.po_Bk.i ∧ c = e.LFr.i)

variable {ks : List (OKey O K)}

private theorem lit_of (hk : e.Keyed env ks) {p : P} {j : OKey O K} (hj : j ∈ ks) :
    e.Lit env (fun n => if n = on p j then 1 else 0) := by
  have h : ∀ a ∈ e.ins, Within env (fun n : P × Key O K => if n = on p j then (1 : ℂ) else 0) a := by
    intro a ha
    refine ⟨by rw [hk.keys a ha]; exact hk.nodup, fun k hn => if_neg ?_⟩
    rw [hk.keys a ha] at hn
    intro hh
    injection hh with _ hh
    injection hh with hh
    exact hn (hh ▸ hj)
  have h' : ∀ a k, k ∉ ks → (if on a k = on p j then (1 : ℂ) else 0) = 0 := by
    intro a k hn
    refine if_neg ?_
    intro hh
    injection hh with _ hh
    injection hh with hh
    exact hn (hh ▸ hj)
  refine ⟨h _ (by simp [EZSqz.ins]), h _ (by simp [EZSqz.ins]), h _ (by simp [EZSqz.ins]), h _ (by simp [EZSqz.ins]), ?_, ?_⟩
  · intro k hn
    rw [hk.keys _ (by simp [EZSqz.ins])] at hn
    exact h' _ k hn
  · intro k hn
    rw [hk.keys _ (by simp [EZSqz.ins])] at hn
    exact h' _ k hn

private theorem on_eq (a p : P) (k j : OKey O K) : (on a k = on p j) = ((p, j) = (a, k)) := by
  simp only [Prod.mk.injEq, Key.opt.injEq, eq_iff_iff]
  exact and_congr eq_comm eq_comm

private theorem amp_out (he : Plain env) (hp : e.Apart) (hw : e.With g1 g2 l φ) (hl : 0 ≤ l) (hl1 : l ≤ 1) (hK : e.Keyed env ks)
    {b a c : P} (hs : e.Side b a c) {k : OKey O K} (hk : k.opt = e.okey) (d : P × OKey O K) (hd : d.2 ∈ ks) :
    amp (e.setup env) (on d.1 d.2) (on b k) = (Real.sqrt (1 - l) * g1 : ℂ) * (if d = (a, k) then 1 else 0) +
      (Real.sqrt (1 - l) * g2 * e.phase env k.q.conj : ℂ) * (if d = (a, e.reflect k) then 1 else 0) +
      (Real.sqrt l : ℂ) * (if d = (c, k) then 1 else 0) := by
  obtain ⟨p, j⟩ := d
  have hs1 : env.sqrt (1 - e.loss) = (Real.sqrt (1 - l) : ℂ) := by
    rw [hw.loss, ← he.sqrt (1 - l) (by linarith)]; push_cast; rfl
  have hs2 : env.sqrt e.loss = (Real.sqrt l : ℂ) := by rw [hw.loss, he.sqrt l hl]
  obtain ⟨h1, h2, -, -⟩ := C115_fields e hp (lit_of hK (p := p) hd) k
  rw [if_pos hk] at h1 h2
  simp only [on_eq, hs1, hs2, hw.gain_1, hw.gain_2] at h1 h2
  rcases hs with ⟨rfl, rfl, rfl⟩ | ⟨rfl, rfl, rfl⟩
  · refine Eq.trans h1 ?_
    ring
  · refine Eq.trans h2 ?_
    ring

private theorem sum_points {S : Finset (P × OKey O K)} {u v z : P × OKey O K} (hu : u ∈ S) (hv : v ∈ S) (hz : z ∈ S) (α β γ : ℂ)
    (w G : P × OKey O K → ℂ) :
    ∑ d ∈ S, w d * (α * (if d = u then 1 else 0) + β * (if d = v then 1 else 0) + γ * (if d = z then 1 else 0)) * G d =
      w u * α * G u + w v * β * G v + w z * γ * G z := by
  simp only [mul_add, add_mul, Finset.sum_add_distrib, mul_ite, mul_one, mul_zero, ite_mul, zero_mul, Finset.sum_ite_eq', hu, hv, hz,
    if_true]

private theorem phase_star (he : Plain env) (hw : e.With g1 g2 l φ) (q : Quantum) :
    star (e.phase env q) = e.phase env q.conj ∧ e.phase env q * e.phase env q.conj = 1 := by
  obtain ⟨r1, r2⟩ := phase_eq he hw
  have h1 : star (Complex.exp (2 * φ * Complex.I)) = Complex.exp (-(2 * φ * Complex.I)) := by
    show (starRingEnd ℂ) _ = _
    rw [← Complex.exp_conj]
    congr 1
    rw [map_mul, map_mul, map_ofNat, Complex.conj_ofReal, Complex.conj_I, mul_neg]
  have h2 : Complex.exp (2 * φ * Complex.I) * Complex.exp (-(2 * φ * Complex.I)) = 1 := by
    rw [← Complex.exp_add, add_neg_cancel, Complex.exp_zero]
  cases q
  · show star (e.phase env .lower) = e.phase env .raise ∧ e.phase env .lower * e.phase env .raise = 1
    rw [r1, r2]
    exact ⟨by rw [← h1, star_star], by rw [mul_comm]; exact h2⟩
  · show star (e.phase env .raise) = e.phase env .lower ∧ e.phase env .raise * e.phase env .lower = 1
    rw [r1, r2]
    exact ⟨h1, h2⟩

private theorem side_mem {b a c : P} (hs : e.Side b a c) : a ∈ e.ins ∧ c ∈ e.ins := by
  rcases hs with ⟨-, rfl, rfl⟩ | ⟨-, rfl, rfl⟩ <;> simp [EZSqz.ins]

private theorem side_ne (hp : e.Apart) {b a c : P} (hs : e.Side b a c) : a ≠ c := by
  have h := hp.ins
  simp only [List.nodup_cons, List.mem_cons, List.not_mem_nil, or_false, not_or] at h
  obtain ⟨⟨h1, h2, h3⟩, ⟨h4, h5⟩, h6, -⟩ := h
  rcases hs with ⟨-, rfl, rfl⟩ | ⟨-, rfl, rfl⟩ <;> assumption

private theorem side_apart (hp : e.Apart) {b a c b' a' c' : P} (hs : e.Side b a c) (hs' : e.Side b' a' c') :
    (b = b' ∧ a = a' ∧ c = c') ∨ (b ≠ b' ∧ a ≠ a' ∧ a ≠ c' ∧ c ≠ a' ∧ c ≠ c') := by
  have h := hp.ins
  have ho := hp.outs
  simp only [List.nodup_cons, List.mem_cons, List.not_mem_nil, or_false, not_or] at h ho
  obtain ⟨⟨h1, h2, h3⟩, ⟨h4, h5⟩, h6, -⟩ := h
  obtain ⟨⟨o1, -, -⟩, -⟩ := ho
  rcases hs with ⟨rfl, rfl, rfl⟩ | ⟨rfl, rfl, rfl⟩ <;> rcases hs' with ⟨rfl, rfl, rfl⟩ | ⟨rfl, rfl, rfl⟩
  · exact Or.inl ⟨rfl, rfl, rfl⟩
  · exact Or.inr ⟨Ne.symm o1, h1, h2, Ne.symm h5, Ne.symm h6⟩
  · exact Or.inr ⟨o1, Ne.symm h1, h5, Ne.symm h2, h6⟩
  · exact Or.inl ⟨rfl, rfl, rfl⟩

/-- **C115**, part: the light that leaves the two optical ports has the commutators of light, at the keys of the optical frequency of
the squeezer.  Missing: the loss ports and other frequencies, see the theorems below. -/
theorem C115_commutators_partial (he : Plain env) (hp : e.Apart) (hw : e.With g1 g2 l φ) (hl : 0 ≤ l) (hl1 : l ≤ 1)
    (hg : g1 ^ 2 - g2 ^ 2 = 1) (hK : e.Keyed env ks) {b b' : P} (hb : b = e.po_Fr.o ∨ b = e.po_Bk.o)
    (hb' : b' = e.po_Fr.o ∨ b' = e.po_Bk.o) {k k' : OKey O K} (hk : k ∈ ks) (hk' : k' ∈ ks) (ho : k.opt = e.okey)
    (ho' : k'.opt = e.okey) :
    commutator (e.setup env) e.ins ks (on b k) (on b' k') = if b = b' ∧ k = k' then sgn k.q else 0 := by
  have side : ∀ b, b = e.po_Fr.o ∨ b = e.po_Bk.o → ∃ a c, e.Side b a c := by
    rintro b (rfl | rfl)
    · exact ⟨_, _, Or.inr ⟨rfl, rfl, rfl⟩⟩
    · exact ⟨_, _, Or.inl ⟨rfl, rfl, rfl⟩⟩
  obtain ⟨a, c, hs⟩ := side b hb
  obtain ⟨a', c', hs'⟩ := side b' hb'
  have hin : ∀ p ∈ e.ins, ∀ j ∈ ks, (p, j) ∈ e.ins.toFinset ×ˢ ks.toFinset := fun p h j h' =>
    Finset.mem_product.2 ⟨List.mem_toFinset.2 h, List.mem_toFinset.2 h'⟩
  have hR := hK.closed k hk ho
  have hR' := hK.closed k' hk' ho'
  have hac := side_ne hp hs
  unfold commutator
  rw [Finset.sum_congr rfl (fun d hd => by
    rw [amp_out he hp hw hl hl1 hK hs ho d (List.mem_toFinset.1 (Finset.mem_product.1 hd).2)])]
  rw [sum_points (hin a (side_mem hs).1 k hk) (hin a (side_mem hs).1 _ hR) (hin c (side_mem hs).2 k hk) _ _ _
    (fun d => sgn d.2.q) (fun d => star (amp (e.setup env) (on d.1 d.2) (on b' k')))]
  have f1 := amp_out he hp hw hl hl1 hK hs' ho' (a, k) hk
  have f2 := amp_out he hp hw hl hl1 hK hs' ho' (a, e.reflect k) hR
  have f3 := amp_out he hp hw hl hl1 hK hs' ho' (c, k) hk
  simp only [] at f1 f2 f3 ⊢
  rw [f1, f2, f3]
  rcases side_apart hp hs hs' with ⟨rfl, rfl, rfl⟩ | ⟨hbb, n1, n2, n3, n4⟩
  · have hss : (Real.sqrt (1 - l) : ℂ) * Real.sqrt (1 - l) = 1 - l := by
      rw [← Complex.ofReal_mul, Real.mul_self_sqrt (by linarith)]; push_cast; rfl
    have hsl : (Real.sqrt l : ℂ) * Real.sqrt l = l := by rw [← Complex.ofReal_mul, Real.mul_self_sqrt hl]
    have hgc : (g1 : ℂ) ^ 2 - (g2 : ℂ) ^ 2 = 1 := by exact_mod_cast hg
    obtain ⟨p1, p2⟩ := phase_star he hw k.q.conj
    have hqq : k.q.conj.conj = k.q := by cases k.q <;> rfl
    have hsg : sgn (e.reflect k).q = -sgn k.q := by
      show sgn k.q.conj = _
      cases k.q <;> simp [sgn, Quantum.conj]
    rw [hqq] at p1 p2
    by_cases h1 : k = k'
    · subst h1
      simp only [Prod.mk.injEq, true_and, hac, hac.symm, false_and, if_false, if_true, e.reflect_ne k, (e.reflect_ne k).symm, mul_one,
        mul_zero, add_zero, zero_add, star_mul', p1, hsg, and_self]
      have c1 : star (Real.sqrt (1 - l) : ℂ) = Real.sqrt (1 - l) := Complex.conj_ofReal _
      have c2 : star (Real.sqrt l : ℂ) = Real.sqrt l := Complex.conj_ofReal _
      have c3 : star (g1 : ℂ) = g1 := Complex.conj_ofReal _
      have c4 : star (g2 : ℂ) = g2 := Complex.conj_ofReal _
      rw [c1, c2, c3, c4]
      linear_combination (sgn k.q * (g1 ^ 2 - g2 ^ 2)) * hss + sgn k.q * hsl + (sgn k.q * (1 - l)) * hgc -
        (sgn k.q * Real.sqrt (1 - l) * Real.sqrt (1 - l) * g2 ^ 2) * p2
    · rw [if_neg (show ¬(b = b ∧ k = k') from fun h => h1 h.2)]
      by_cases h2 : e.reflect k = k'
      · subst h2
        have hqR : (e.reflect k).q.conj = k.q := hqq
        simp only [Prod.mk.injEq, true_and, hac, hac.symm, false_and, if_false, if_true, e.reflect_ne k, (e.reflect_ne k).symm,
          mul_one, mul_zero, add_zero, zero_add, star_mul', hsg, e.reflect_reflect, hqR, star_zero]
        have c1 : star (Real.sqrt (1 - l) : ℂ) = Real.sqrt (1 - l) := Complex.conj_ofReal _
        have c3 : star (g1 : ℂ) = g1 := Complex.conj_ofReal _
        have c4 : star (g2 : ℂ) = g2 := Complex.conj_ofReal _
        rw [c1, c3, c4, (phase_star he hw k.q).1]
        ring
      · have h3 : k ≠ e.reflect k' := fun h => h2 (by rw [h, e.reflect_reflect])
        have h4 : e.reflect k ≠ e.reflect k' := fun h => h1 (by rw [← e.reflect_reflect k, h, e.reflect_reflect])
        simp [h1, h2, h3, h4, hac, hac.symm]
  · rw [if_neg (show ¬(b = b' ∧ k = k') from fun h => hbb h.1)]
    simp [n1, n2, n3, n4]

/-- **C115** is false for other optical frequencies: light of other frequencies that enters the squeezer does not leave it. -/
theorem C115_other_refuted (hp : e.Apart) {x : P × Key O K → ℂ} (hx : e.Lit env x) (k : OKey O K) (hk : k.opt ≠ e.okey) :
    total (e.setup env) x (on e.po_Bk.o k) = 0 ∧ total (e.setup env) x (on e.po_Fr.o k) = 0 ∧
    total (e.setup env) x (on e.LFr.o k) = env.sqrt (1 - e.loss) * x (on e.LFr.i k) := by
  obtain ⟨h1, h2, h3, -⟩ := C115_fields e hp hx k
  rw [if_neg hk] at h1 h2 h3
  exact ⟨h1, h2, by rw [h3, zero_add]⟩

/-- **C115** is false for the loss ports: the light lost at the front does not commute with the light that leaves at the back, so the
couplings do not form a unitary matrix "with loss ports" (l.313). -/
theorem C115_loss_refuted (he : Plain env) (hp : e.Apart) (hw : e.With g1 g2 l φ) (hl : 0 < l) (hl1 : l < 1) (hg : 0 < g1)
    (hK : e.Keyed env ks) {k : OKey O K} (hk : k ∈ ks) (ho : k.opt = e.okey) :
    commutator (e.setup env) e.ins ks (on e.po_Bk.o k) (on e.LFr.o k) ≠ 0 := by
  have hs : e.Side e.po_Bk.o e.po_Fr.i e.LBk.i := Or.inl ⟨rfl, rfl, rfl⟩
  have hin : ∀ p ∈ e.ins, ∀ j ∈ ks, (p, j) ∈ e.ins.toFinset ×ˢ ks.toFinset := fun p h j h' =>
    Finset.mem_product.2 ⟨List.mem_toFinset.2 h, List.mem_toFinset.2 h'⟩
  have hR := hK.closed k hk ho
  have hs2 : env.sqrt e.loss = (Real.sqrt l : ℂ) := by rw [hw.loss, he.sqrt l hl.le]
  unfold commutator
  rw [Finset.sum_congr rfl (fun d hd => by
    rw [amp_out he hp hw hl.le hl1.le hK hs ho d (List.mem_toFinset.1 (Finset.mem_product.1 hd).2)])]
  rw [sum_points (hin _ (side_mem hs).1 k hk) (hin _ (side_mem hs).1 _ hR) (hin _ (side_mem hs).2 k hk) _ _ _
    (fun d => sgn d.2.q) (fun d => star (amp (e.setup env) (on d.1 d.2) (on e.LFr.o k)))]
  have h := hp.ins
  simp only [List.nodup_cons, List.mem_cons, List.not_mem_nil, or_false, not_or] at h
  obtain ⟨⟨h1, h2, h3⟩, ⟨h4, h5⟩, h6, -⟩ := h
  have f : ∀ p, ∀ j ∈ ks, amp (e.setup env) (on p j) (on e.LFr.o k) =
      env.sqrt e.loss * (if on e.po_Fr.i k = on p j then 1 else 0) +
        env.sqrt (1 - e.loss) * (if on e.LFr.i k = on p j then 1 else 0) := by
    intro p j hj
    have := (C115_fields e hp (lit_of hK (p := p) hj) k).2.2.1
    rw [if_pos ho] at this
    exact this
  simp only []
  rw [f _ k hk, f _ _ hR, f _ k hk]
  simp only [Prod.mk.injEq, Key.opt.injEq, Ne.symm h2, h6, h3, (e.reflect_ne k).symm, false_and, and_false, and_self, if_false,
    if_true, mul_one, mul_zero, add_zero, star_zero, hs2]
  have hr1 : (Real.sqrt (1 - l) : ℂ) ≠ 0 := by
    exact_mod_cast (Real.sqrt_pos.2 (by linarith)).ne'
  have hr2 : (Real.sqrt l : ℂ) ≠ 0 := by
    exact_mod_cast (Real.sqrt_pos.2 hl).ne'
  have hg' : (g1 : ℂ) ≠ 0 := by exact_mod_cast hg.ne'
  have hsg : sgn k.q ≠ 0 := by cases k.q <;> simp [sgn]
  exact mul_ne_zero (mul_ne_zero hsg (mul_ne_zero hr1 hg')) (star_ne_zero.2 hr2)

private theorem normSq_two (a b r s : ℝ) :
    Complex.normSq (Complex.exp (a * Complex.I) * r + Complex.exp (b * Complex.I) * s) = r ^ 2 + s ^ 2 + 2 * r * s * Real.cos (a - b) := by
  rw [Complex.normSq_apply]
  simp only [Complex.add_re, Complex.add_im, Complex.re_mul_ofReal, Complex.im_mul_ofReal, Complex.exp_ofReal_mul_I_re,
    Complex.exp_ofReal_mul_I_im, Real.cos_sub]
  linear_combination r ^ 2 * Real.sin_sq_add_cos_sq a + s ^ 2 * Real.sin_sq_add_cos_sq b

private theorem quad_eq (he : Plain env) (hp : e.Apart) (hw : e.With g1 g2 l φ) (hl : 0 ≤ l) (hl1 : l ≤ 1)
    (hK : e.Keyed env ks) {b : P} (hb : b = e.po_Fr.o ∨ b = e.po_Bk.o) {k : OKey O K} (hk : k ∈ ks) (ho : k.opt = e.okey)
    (hq : k.q = .lower) (θ : ℝ) :
    quadVariance (e.setup env) e.ins ks b k (e.reflect k) θ =
      (1 - l) * (g1 ^ 2 + g2 ^ 2 + 2 * g1 * g2 * Real.cos (2 * (θ - φ))) + l := by
  obtain ⟨a, c, hs⟩ : ∃ a c, e.Side b a c := by
    rcases hb with rfl | rfl
    · exact ⟨_, _, Or.inr ⟨rfl, rfl, rfl⟩⟩
    · exact ⟨_, _, Or.inl ⟨rfl, rfl, rfl⟩⟩
  have hac := side_ne hp hs
  obtain ⟨ha, hc⟩ := side_mem hs
  have hR := hK.closed k hk ho
  have hn := e.reflect_ne k
  obtain ⟨r1, r2⟩ := phase_eq he hw
  have hqR : (e.reflect k).q = .raise := by show k.q.conj = _; rw [hq]; rfl
  have hd : ∀ d : P × OKey O K, d.2 ∈ ks → Complex.exp (-(θ * Complex.I)) * amp (e.setup env) (on d.1 d.2) (on b k) +
      Complex.exp (θ * Complex.I) * amp (e.setup env) (on d.1 d.2) (on b (e.reflect k)) =
      Real.sqrt (1 - l) * (Complex.exp (((-θ : ℝ) : ℂ) * Complex.I) * g1 + Complex.exp (((θ - 2 * φ : ℝ) : ℂ) * Complex.I) * g2) *
        (if d = (a, k) then 1 else 0) +
      Real.sqrt (1 - l) * (Complex.exp ((θ : ℂ) * Complex.I) * g1 + Complex.exp (((2 * φ - θ : ℝ) : ℂ) * Complex.I) * g2) *
        (if d = (a, e.reflect k) then 1 else 0) +
      (Real.sqrt l * Complex.exp (((-θ : ℝ) : ℂ) * Complex.I) * (if d = (c, k) then 1 else 0) +
      Real.sqrt l * Complex.exp ((θ : ℂ) * Complex.I) * (if d = (c, e.reflect k) then 1 else 0)) := by
    intro d hd
    rw [amp_out he hp hw hl hl1 hK hs ho d hd, amp_out he hp hw hl hl1 hK hs (show (e.reflect k).opt = e.okey from ho) d hd, hqR, hq,
      e.reflect_reflect]
    have x1 : Complex.exp (((θ - 2 * φ : ℝ) : ℂ) * Complex.I) = Complex.exp (θ * Complex.I) * Complex.exp (-(2 * φ * Complex.I)) := by
      rw [← Complex.exp_add]; congr 1; push_cast; ring
    have x2 : Complex.exp (((2 * φ - θ : ℝ) : ℂ) * Complex.I) = Complex.exp (-(θ * Complex.I)) * Complex.exp (2 * φ * Complex.I) := by
      rw [← Complex.exp_add]; congr 1; push_cast; ring
    have x3 : Complex.exp (((-θ : ℝ) : ℂ) * Complex.I) = Complex.exp (-(θ * Complex.I)) := by
      congr 1; push_cast; ring
    simp only [Quantum.conj, r1, r2]
    rw [x1, x2, x3]
    ring
  unfold quadVariance
  rw [Finset.sum_congr rfl (fun d hd' => by rw [hd d (List.mem_toFinset.1 (Finset.mem_product.1 hd').2)])]
  have hsub : ({(a, k), (a, e.reflect k), (c, k), (c, e.reflect k)} : Finset (P × OKey O K)) ⊆ e.ins.toFinset ×ˢ ks.toFinset := by
    intro d hd
    simp only [Finset.mem_insert, Finset.mem_singleton] at hd
    rcases hd with rfl | rfl | rfl | rfl <;> exact Finset.mem_product.2 ⟨List.mem_toFinset.2 (by assumption), List.mem_toFinset.2 (by assumption)⟩
  rw [← Finset.sum_subset hsub (fun d _ hd => by
    simp only [Finset.mem_insert, Finset.mem_singleton, not_or] at hd
    obtain ⟨d1, d2, d3, d4⟩ := hd
    simp only [d1, d2, d3, d4, if_false, mul_zero, add_zero, map_zero])]
  rw [Finset.sum_insert (by simp [hac, hn.symm]), Finset.sum_insert (by simp [hac]), Finset.sum_insert (by simp [hn.symm]), Finset.sum_singleton]
  simp only [Prod.mk.injEq, hac, hac.symm, hn, hn.symm, true_and, false_and, if_true, if_false, mul_one, mul_zero, add_zero, zero_add,
    Complex.normSq_mul, normSq_two, Complex.normSq_ofReal]
  have hu : ∀ t : ℝ, Complex.normSq (Complex.exp (t * Complex.I)) = 1 := by
    intro t
    have := normSq_two t 0 1 0
    simpa using this
  rw [hu, hu, Real.mul_self_sqrt hl, Real.mul_self_sqrt (by linarith : (0 : ℝ) ≤ 1 - l),
    show -θ - (θ - 2 * φ) = -(2 * (θ - φ)) by ring, Real.cos_neg, show θ - (2 * φ - θ) = 2 * (θ - φ) by ring]
  ring

/-- **C115**, part: with vacuum at the inputs, a squeezer for the variances `v1` and `v2` has the variance `v2` along its angle and `v1`
across it, and all other quadratures are in between.  Missing: the docstring has the variance `v1` along the angle. -/
theorem C115_variances_partial (he : Plain env) (hp : e.Apart) {v1 v2 : ℝ} {u : SqzUsed} (hu : u.Agree v1 v2)
    (hw : e.With u.field_gain_1 u.field_gain_2 u.loss φ) (hK : e.Keyed env ks) {b : P} (hb : b = e.po_Fr.o ∨ b = e.po_Bk.o)
    {k : OKey O K} (hk : k ∈ ks) (ho : k.opt = e.okey) (hq : k.q = .lower) :
    quadVariance (e.setup env) e.ins ks b k (e.reflect k) φ = v2 ∧
    quadVariance (e.setup env) e.ins ks b k (e.reflect k) (φ + Real.pi / 2) = v1 ∧
    ∀ θ, v1 ≤ quadVariance (e.setup env) e.ins ks b k (e.reflect k) θ ∧
      quadVariance (e.setup env) e.ins ks b k (e.reflect k) θ ≤ v2 := by
  have key := quad_eq he hp hw hu.loss_nonneg hu.loss_lt.le hK hb hk ho hq
  have hl : 0 ≤ 1 - u.loss := by linarith [hu.loss_lt]
  have hgg : 0 ≤ (1 - u.loss) * (u.field_gain_1 * u.field_gain_2) :=
    mul_nonneg hl (mul_pos hu.gain_pos.1 hu.gain_pos.2).le
  refine ⟨?_, ?_, fun θ => ⟨?_, ?_⟩⟩
  · rw [key, sub_self, mul_zero, Real.cos_zero, ← hu.var_2]
    ring
  · rw [key, show 2 * (φ + Real.pi / 2 - φ) = Real.pi by ring, Real.cos_pi, ← hu.var_1]
    ring
  · rw [key, ← hu.var_1]
    nlinarith [mul_nonneg hgg (by linarith [Real.neg_one_le_cos (2 * (θ - φ))] : 0 ≤ Real.cos (2 * (θ - φ)) + 1)]
  · rw [key, ← hu.var_2]
    nlinarith [mul_nonneg hgg (by linarith [Real.cos_le_one (2 * (θ - φ))] : 0 ≤ 1 - Real.cos (2 * (θ - φ)))]

/-- **C115** is false for the docstring ("defaults to squeezing amplitude quadrature", l.18-23): with the default angle zero the
amplitude quadrature, at angle zero, has more noise than vacuum. -/
theorem C115_amplitude_refuted (he : Plain env) (hp : e.Apart) {v1 v2 : ℝ} (h2 : 1 < v2) {u : SqzUsed} (hu : u.Agree v1 v2)
    (hw : e.With u.field_gain_1 u.field_gain_2 u.loss 0) (hK : e.Keyed env ks) {k : OKey O K} (hk : k ∈ ks) (ho : k.opt = e.okey)
    (hq : k.q = .lower) : 1 < quadVariance (e.setup env) e.ins ks e.po_Bk.o k (e.reflect k) 0 := by
  rw [(C115_variances_partial he hp hu hw hK (Or.inr rfl) hk ho hq).1]
  exact h2

end complex

/-! ## a squeezer -/

/-- Light at the frequencies 0 and ±1. -/
noncomputable abbrev zenv : OEnv ℕ Unit ℤ ℂ := demo (fun _ => keysAt [0, 1, -1]) (fun _ => []) (fun _ => false)

/-- A squeezer with the given numbers, in its default direction. -/
noncomputable def zsqz (g1 g2 l : ℝ) : EZSqz ℕ Unit ℤ ℂ := ⟨⟨0, 1⟩, ⟨2, 3⟩, ⟨4, 5⟩, ⟨6, 7⟩, (), 0, g1, g2, l, 0⟩

theorem zenv_plain : Plain zenv := ⟨rfl, rfl, fun r _ => by show csqrt _ = _; simp [csqrt]⟩

theorem zsqz_apart (g1 g2 l : ℝ) : (zsqz g1 g2 l).Apart :=
  ⟨by show [1, 3, 5, 7].Nodup; decide, by show [0, 2, 4, 6].Nodup; decide⟩

theorem zsqz_with (g1 g2 l : ℝ) : (zsqz g1 g2 l).With g1 g2 l 0 := ⟨rfl, rfl, rfl, by show (0 : ℂ) = _; simp⟩

theorem zsqz_keyed (g1 g2 l : ℝ) : (zsqz g1 g2 l).Keyed zenv (keysAt [0, 1, -1]) := by
  refine ⟨fun _ _ => rfl, keysAt_nodup (by decide), fun k hk _ => ?_⟩
  rw [mem_keysAt] at hk ⊢
  show 0 + 0 - k.cls ∈ [0, 1, -1]
  simp only [List.mem_cons, List.not_mem_nil, or_false] at hk ⊢
  omega

theorem zkey : (⟨(), 1, .S, .lower⟩ : OKey Unit ℤ) ∈ keysAt [0, 1, -1] := mem_keysAt.2 (show (1 : ℤ) ∈ [0, 1, -1] by decide)

/-- A squeezer for the variances 1/2 and 3: commutators, and noise. -/
example : ∃ u, sqz_init { rel_variance_1 := some (1 / 2), rel_variance_2 := some 3 } = .ok u ∧
    commutator ((zsqz u.field_gain_1 u.field_gain_2 u.loss).setup zenv) [0, 2, 4, 6] (keysAt [0, 1, -1]) (on 3 ⟨(), 1, .S, .lower⟩)
      (on 3 ⟨(), 1, .S, .lower⟩) = 1 ∧
    quadVariance ((zsqz u.field_gain_1 u.field_gain_2 u.loss).setup zenv) [0, 2, 4, 6] (keysAt [0, 1, -1]) 3 ⟨(), 1, .S, .lower⟩
      ⟨(), -1, .S, .raise⟩ 0 = 3 := by
  obtain ⟨u, hu, ha, -⟩ := C114_variances_partial (1 / 2) 3 none (by norm_num) (by norm_num) (by norm_num) (by norm_num)
  refine ⟨u, hu, ?_, ?_⟩
  · exact (C115_commutators_partial zenv_plain (zsqz_apart _ _ _) (zsqz_with _ _ _) ha.loss_nonneg ha.loss_lt.le ha.gains
      (zsqz_keyed _ _ _) (Or.inr rfl) (Or.inr rfl) zkey zkey rfl rfl).trans (if_pos ⟨rfl, rfl⟩)
  · exact (C115_variances_partial zenv_plain (zsqz_apart _ _ _) ha (zsqz_with _ _ _) (zsqz_keyed _ _ _) (Or.inr rfl) zkey rfl rfl).1

/-- The amplitude quadrature of that squeezer is noisier than vacuum. -/
example : ∃ u, sqz_init { rel_variance_1 := some (1 / 2), rel_variance_2 := some 3 } = .ok u ∧
    1 < quadVariance ((zsqz u.field_gain_1 u.field_gain_2 u.loss).setup zenv) [0, 2, 4, 6] (keysAt [0, 1, -1]) 3 ⟨(), 1, .S, .lower⟩
      ⟨(), -1, .S, .raise⟩ 0 := by
  obtain ⟨u, hu, ha, -⟩ := C114_variances_partial (1 / 2) 3 none (by norm_num) (by norm_num) (by norm_num) (by norm_num)
  exact ⟨u, hu, C115_amplitude_refuted zenv_plain (zsqz_apart _ _ _) (by norm_num : (1 : ℝ) < 3) ha (zsqz_with _ _ _) (zsqz_keyed _ _ _)
    zkey rfl rfl⟩

/-- Light at a single node, in the quadrature that is amplified: the gains 5/4 and 3/4 add up. -/
example : Complex.exp (-(((0 : ℝ) : ℂ) * Complex.I)) * total ((zsqz (5 / 4) (3 / 4) 0).setup zenv)
      (fun n => if n = on 0 ⟨(), 1, .S, .lower⟩ then 1 else 0) (on 3 ⟨(), 1, .S, .lower⟩) +
    Complex.exp (((0 : ℝ) : ℂ) * Complex.I) * total ((zsqz (5 / 4) (3 / 4) 0).setup zenv)
      (fun n => if n = on 0 ⟨(), 1, .S, .lower⟩ then 1 else 0) (on 3 ⟨(), -1, .S, .raise⟩) = 2 := by
  refine (C115_quadratures zenv_plain (zsqz_apart _ _ _) (zsqz_with (5 / 4) (3 / 4) 0) le_rfl zero_le_one
    (lit_of (zsqz_keyed _ _ _) (p := 0) zkey) ⟨(), 1, .S, .lower⟩ rfl rfl 0 2 (Or.inl ⟨rfl, by norm_num⟩)).1.trans ?_
  simp [zsqz, EZSqz.reflect, Quantum.conj]

/-- Half of the light is lost. -/
example : commutator ((zsqz 1 0 (1 / 2)).setup zenv) [0, 2, 4, 6] (keysAt [0, 1, -1]) (on 3 ⟨(), 1, .S, .lower⟩)
    (on 5 ⟨(), 1, .S, .lower⟩) ≠ 0 :=
  C115_loss_refuted zenv_plain (zsqz_apart _ _ _) (zsqz_with _ _ _) (by norm_num) (by norm_num) one_pos (zsqz_keyed _ _ _) zkey rfl

/-- Light at a single node, through the squeezer. -/
example : total ((zsqz 1 0 0).setup zenv) (fun n => if n = on 0 ⟨(), 1, .S, .lower⟩ then 1 else 0) (on 3 ⟨(), 1, .S, .lower⟩) = 1 := by
  refine (C115_fields (zsqz 1 0 0) (zsqz_apart 1 0 0) (lit_of (zsqz_keyed 1 0 0) (p := 0) zkey) _).1.trans ?_
  simp [zsqz, EZSqz.reflect, csqrt, Quantum.conj, demo]

/-- A beam of another frequency is absorbed. -/
example : let env : OEnv ℕ Bool ℤ ℂ := ⟨fun _ => [⟨true, 0, .S, .lower⟩], fun _ => [], fun _ => false, fun _ => 1, fun _ => 0, Complex.I,
      Real.pi, 2 * Real.pi * Complex.I, 1, Complex.exp, csqrt, Complex.cos, Complex.sin⟩
    total ((⟨⟨0, 1⟩, ⟨2, 3⟩, ⟨4, 5⟩, ⟨6, 7⟩, false, 0, 1, 0, 0, 0⟩ : EZSqz ℕ Bool ℤ ℂ).setup env)
      (fun n => if n = on 0 ⟨true, 0, .S, .lower⟩ then 1 else 0) (on 3 ⟨true, 0, .S, .lower⟩) = 0 := by
  intro env
  have hw : ∀ p, Within env (fun n : ℕ × Key Bool ℤ => if n = on 0 ⟨true, 0, .S, .lower⟩ then (1 : ℂ) else 0) p := by
    intro p
    refine ⟨by simp [env], fun k hk => if_neg ?_⟩
    intro h
    injection h with _ h
    injection h with h
    exact hk (by simp [env, h])
  exact (C115_other_refuted ⟨by decide, by decide⟩ ⟨hw 0, hw 2, hw 4, hw 6, (hw 4).2, (hw 6).2⟩ ⟨true, 0, .S, .lower⟩ (by decide)).1

end Optics
