import Verif.Optics.Mirror

/-!
# Spaces, lasers, rotators, wave plates, selectors and circulators (C71-C76)
-/

set_option linter.unusedSectionVars false

namespace Optics
open Py Inject Circuit
open Signal (Balanced wave)

variable {P O K F : Type} [DecidableEq P] [DecidableEq O] [DecidableEq K] [AddCommGroup K] [Field F] [StarRing F]
  [DecidableEq F]
variable (env : OEnv P O K F)

/-- The keys of a port are listed once, and there is no light at other keys. -/
def Within (x : P × Key O K → F) (p : P) : Prop :=
  (env.okeys p).Nodup ∧ ∀ k, k ∉ env.okeys p → x (p, .opt k) = 0

variable {env}

/-- edges that take a key to another one and back -/
theorem moved_total {x : P × Key O K → F} {a : P} (hw : Within env x a) (b : P) {f : OKey O K → OKey O K}
    (hf : ∀ k, f (f k) = k) (v : OKey O K → F) (r : P) (j : OKey O K) :
    total ((env.okeys a).map (fun k => Coupling.edge (on a k) (on b (f k)) (v k))) x (on r j) =
      if b = r then v (f j) * x (on a (f j)) else 0 := by
  rw [total_map, ← List.sum_toFinset _ hw.1]
  by_cases h : b = r
  · subst h
    rw [if_pos rfl]
    by_cases hj : f j ∈ env.okeys a
    · rw [Finset.sum_eq_single (f j), into_edge, if_pos (by rw [hf])]
      · intro k _ hk
        rw [into_edge, if_neg]
        intro h
        injection h with _ h
        injection h with h
        exact hk (by rw [← h, hf])
      · intro h
        exact absurd (List.mem_toFinset.2 hj) h
    · rw [show x (on a (f j)) = 0 from hw.2 _ hj, mul_zero, Finset.sum_eq_zero]
      intro k hk
      rw [into_edge, if_neg]
      intro h
      injection h with _ h
      injection h with h
      exact hj (by rw [← h, hf]; exact List.mem_toFinset.1 hk)
  · rw [if_neg h, Finset.sum_eq_zero]
    intro k _
    rw [into_edge, if_neg]
    intro h'
    exact h (congrArg Prod.fst h')

theorem kept_total {x : P × Key O K → F} {a : P} (hw : Within env x a) (b : P) (v : OKey O K → F) (r : P) (j : OKey O K) :
    total ((env.okeys a).map (fun k => Coupling.edge (on a k) (on b k) (v k))) x (on r j) =
      if b = r then v j * x (on a j) else 0 :=
  moved_total hw b (f := id) (fun _ => rfl) v r j

/-- the same two ways -/
theorem both_ways {x : P × Key O K → F} {p q : Port P} (hp : Within env x p.i) (hq : Within env x q.i) (hne : p.o ≠ q.o)
    (v : OKey O K → F) (k : OKey O K) :
    total ([(p, q), (q, p)].flatMap (fun pq => (env.okeys pq.1.i).map
      (fun k => Coupling.edge (on pq.1.i k) (on pq.2.o k) (v k)))) x (on q.o k) = v k * x (on p.i k) ∧
    total ([(p, q), (q, p)].flatMap (fun pq => (env.okeys pq.1.i).map
      (fun k => Coupling.edge (on pq.1.i k) (on pq.2.o k) (v k)))) x (on p.o k) = v k * x (on q.i k) := by
  constructor
  · rw [total_flatMap, List.map_cons, List.map_cons, List.map_nil, List.sum_cons, List.sum_cons, List.sum_nil,
      kept_total hp, kept_total hq, if_pos rfl, if_neg hne, add_zero, add_zero]
  · rw [total_flatMap, List.map_cons, List.map_cons, List.map_nil, List.sum_cons, List.sum_cons, List.sum_nil,
      kept_total hp, kept_total hq, if_pos rfl, if_neg (Ne.symm hne), add_zero, zero_add]

/-! ## spaces -/

theorem space_total {x : P × Key O K → F} (e : Space P F) (hne : e.po_Fr.o ≠ e.po_Bk.o) (hF : Within env x e.po_Fr.i)
    (hB : Within env x e.po_Bk.i) (k : OKey O K) :
    total (e.setup env) x (on e.po_Bk.o k) = e.cplg env k * x (on e.po_Fr.i k) ∧
    total (e.setup env) x (on e.po_Fr.o k) = e.cplg env k * x (on e.po_Bk.i k) :=
  both_ways hF hB hne (e.cplg env) k

/-- The exponentials `exp(2πi f t)` of the frequencies at the time `t`. -/
def clock (env : OEnv P O K F) (t : F) (k : K) : F := env.exp (env.i2pi * (env.freq k * t))

/-- **C71.**  The light that leaves a space at the time `t` is the light that entered at the other end at the time
`t - L/c`, times the phase `exp(-2πi d/λ)` of the detuning `d`, conjugated for the raising fields. -/
theorem C71_delay (hexp : ∀ a b, env.exp (a + b) = env.exp a * env.exp b) (hfreq : ∀ k, env.freq (-k) = -env.freq k)
    {x : P × Key O K → F} (e : Space P F) (hne : e.po_Fr.o ≠ e.po_Bk.o) (hF : Within env x e.po_Fr.i)
    (hB : Within env x e.po_Bk.i) {p q : Port P} (hpq : (p, q) = (e.po_Fr, e.po_Bk) ∨ (p, q) = (e.po_Bk, e.po_Fr))
    (ho : (env.okeys q.o).Nodup) (hout : ∀ k ∈ env.okeys p.i, k ∈ env.okeys q.o) (t : F) (md : O × Pol) :
    light (clock env t) (env.okeys q.o) (fun k => ((e.setup env).map (fun c => c.into x (q.o, .opt k))).sum) md .lower =
      env.exp (-(env.i2pi * (e.L_detune_m * env.iwavelen_m md.1))) *
        light (clock env (t - e.L_m / env.c_m_s)) (env.okeys p.i) (fun k => x (p.i, .opt k)) md .lower ∧
    light (clock env t) (env.okeys q.o) (fun k => ((e.setup env).map (fun c => c.into x (q.o, .opt k))).sum) md .raise =
      env.exp (env.i2pi * (e.L_detune_m * env.iwavelen_m md.1)) *
        light (clock env (t - e.L_m / env.c_m_s)) (env.okeys p.i) (fun k => x (p.i, .opt k)) md .raise := by
  have hp : Within env x p.i := by
    rcases hpq with h | h <;> (cases h; assumption)
  have htot : ∀ k, total (e.setup env) x (on q.o k) = e.cplg env k * x (on p.i k) := by
    intro k
    rcases hpq with h | h
    · cases h
      exact (space_total e hne hF hB k).1
    · cases h
      exact (space_total e hne hF hB k).2
  have key : ∀ (Q : Quantum) (w : F), (∀ k : OKey O K, (k.opt, k.pol) = md → k.q = Q →
      e.cplg env k * clock env t (match Q with | .lower => k.cls | .raise => -k.cls) =
        w * clock env (t - e.L_m / env.c_m_s) (match Q with | .lower => k.cls | .raise => -k.cls)) →
      light (clock env t) (env.okeys q.o) (fun k => total (e.setup env) x (on q.o k)) md Q =
        w * light (clock env (t - e.L_m / env.c_m_s)) (env.okeys p.i) (fun k => x (p.i, .opt k)) md Q := by
    intro Q w hw
    unfold light
    rw [Finset.mul_sum]
    symm
    rw [Finset.sum_subset (s₁ := (env.okeys p.i).toFinset) (s₂ := (env.okeys q.o).toFinset)]
    · apply Finset.sum_congr rfl
      intro k _
      by_cases h : (k.opt, k.pol) = md ∧ k.q = Q
      · rw [if_pos h, if_pos h]
        dsimp only
        rw [htot]
        have := hw k h.1 h.2
        linear_combination -x (p.i, .opt k) * this
      · rw [if_neg h, if_neg h, mul_zero]
    · intro k hk
      exact List.mem_toFinset.2 (hout k (List.mem_toFinset.1 hk))
    · intro k _ hk
      split_ifs
      · dsimp only
        rw [hp.2 k (fun h => hk (List.mem_toFinset.2 h)), zero_mul, mul_zero]
      · exact mul_zero _
  constructor
  · refine key .lower _ (fun k hmd hq => ?_)
    unfold Space.cplg clock
    rw [hq]
    show e.phase_lower env _ _ * _ = _
    unfold Space.phase_lower
    rw [← hexp, ← hexp, ← hmd]
    congr 1
    ring
  · refine key .raise _ (fun k hmd hq => ?_)
    unfold Space.cplg clock
    rw [hq]
    show e.phase_raise env _ _ * _ = _
    unfold Space.phase_raise
    dsimp only
    rw [← hexp, ← hexp, ← hmd, hfreq]
    congr 1
    ring

/-- **C71.**  A space does not change the power at any key. -/
theorem C71_power (hexp : ∀ a b, env.exp (a + b) = env.exp a * env.exp b) (h0 : env.exp 0 = 1)
    (hstar : ∀ z, star (env.exp z) = env.exp (star z)) (hi : star env.i2pi = -env.i2pi) (hc : star env.c_m_s = env.c_m_s)
    (hw : ∀ o, star (env.iwavelen_m o) = env.iwavelen_m o) (hf : ∀ k, star (env.freq k) = env.freq k)
    {x : P × Key O K → F} (e : Space P F) (hL : star e.L_m = e.L_m) (hd : star e.L_detune_m = e.L_detune_m)
    (hne : e.po_Fr.o ≠ e.po_Bk.o) (hF : Within env x e.po_Fr.i) (hB : Within env x e.po_Bk.i) {p q : Port P}
    (hpq : (p, q) = (e.po_Fr, e.po_Bk) ∨ (p, q) = (e.po_Bk, e.po_Fr)) (k : OKey O K) :
    ((e.setup env).map (fun c => c.into x (q.o, .opt k))).sum *
      star ((e.setup env).map (fun c => c.into x (q.o, .opt k))).sum = x (p.i, .opt k) * star (x (p.i, .opt k)) := by
  have htot : total (e.setup env) x (on q.o k) = e.cplg env k * x (on p.i k) := by
    rcases hpq with h | h
    · cases h
      exact (space_total e hne hF hB k).1
    · cases h
      exact (space_total e hne hF hB k).2
  have hunit : e.cplg env k * star (e.cplg env k) = 1 := by
    unfold Space.cplg
    have h1 : ∀ a : F, star a = -a → env.exp a * star (env.exp a) = 1 := by
      intro a ha
      rw [hstar, ha, ← hexp, add_neg_cancel, h0]
    cases k.q with
    | lower =>
      apply h1
      simp only [star_mul', star_neg, star_add, Signal.star_div_, hi, hc, hL, hd, hw, hf]
      ring
    | raise =>
      apply h1
      simp only [star_mul', star_add, Signal.star_div_, hi, hc, hL, hd, hw, hf]
      ring
  show total (e.setup env) x (on q.o k) * star (total (e.setup env) x (on q.o k)) = _
  rw [htot, star_mul']
  calc _ = (e.cplg env k * star (e.cplg env k)) * (x (on p.i k) * star (x (on p.i k))) := by ring
    _ = _ := by rw [hunit, one_mul]

/-- **C71.**  Two spaces that are bonded in series act like one space with the sums of the lengths and of the detunings,
in both directions. -/
theorem C71_series (hexp : ∀ a b, env.exp (a + b) = env.exp a * env.exp b) {x : P × Key O K → F} (e1 e2 e : Space P F)
    (hports : e.po_Fr = e1.po_Fr ∧ e.po_Bk = e2.po_Bk) (hL : e.L_m = e1.L_m + e2.L_m)
    (hd : e.L_detune_m = e1.L_detune_m + e2.L_detune_m)
    (h1 : e1.po_Fr.o ≠ e1.po_Bk.o) (h2 : e2.po_Fr.o ≠ e2.po_Bk.o) (h3 : e1.po_Fr.o ≠ e2.po_Bk.o)
    (hw : ∀ p ∈ [e1.po_Fr, e1.po_Bk, e2.po_Fr, e2.po_Bk], Within env x p.i) (k : OKey O K)
    (hb1 : x (e2.po_Fr.i, .opt k) = ((e1.setup env).map (fun c => c.into x (e1.po_Bk.o, .opt k))).sum)
    (hb2 : x (e1.po_Bk.i, .opt k) = ((e2.setup env).map (fun c => c.into x (e2.po_Fr.o, .opt k))).sum) :
    ((e2.setup env).map (fun c => c.into x (e2.po_Bk.o, .opt k))).sum =
      ((e.setup env).map (fun c => c.into x (e2.po_Bk.o, .opt k))).sum ∧
    ((e1.setup env).map (fun c => c.into x (e1.po_Fr.o, .opt k))).sum =
      ((e.setup env).map (fun c => c.into x (e1.po_Fr.o, .opt k))).sum := by
  have a1 := space_total e1 h1 (hw _ (by simp)) (hw _ (by simp)) k
  have a2 := space_total e2 h2 (hw _ (by simp)) (hw _ (by simp)) k
  have a := space_total (x := x) e (by rw [hports.1, hports.2]; exact h3) (by rw [hports.1]; exact hw _ (by simp))
    (by rw [hports.2]; exact hw _ (by simp)) k
  have hc : e.cplg env k = e1.cplg env k * e2.cplg env k := by
    unfold Space.cplg
    cases k.q with
    | lower =>
      show e.phase_lower env _ _ = e1.phase_lower env _ _ * e2.phase_lower env _ _
      unfold Space.phase_lower
      rw [← hexp, hL, hd]
      congr 1
      ring
    | raise =>
      show e.phase_raise env _ _ = e1.phase_raise env _ _ * e2.phase_raise env _ _
      unfold Space.phase_raise
      rw [← hexp, hL, hd]
      congr 1
      ring
  rw [hports.1, hports.2] at a
  constructor
  · refine a2.1.trans (Eq.trans ?_ a.1.symm)
    rw [hc, show x (on e2.po_Fr.i k) = _ from hb1.trans a1.1]
    ring
  · refine a1.2.trans (Eq.trans ?_ a.2.symm)
    rw [hc, show x (on e1.po_Bk.i k) = _ from hb2.trans a2.2]
    ring

/-! ## lasers -/

/-- **C72.**  A photodiode that receives the light of a laser through a space of any length reads the power of the laser,
whatever its phase and polarization, and nothing at other frequencies. -/
theorem C72_power (hexp : ∀ a b, env.exp (a + b) = env.exp a * env.exp b) (h0 : env.exp 0 = 1) (h2 : (2 : F) ≠ 0)
    (ht : ∀ k : K, -k = k → k = 0) (l : Laser P O K F) (hsq : env.sqrt l.power_W * env.sqrt l.power_W = l.power_W)
    (e : Space P F) (hne : e.po_Fr.o ≠ e.po_Bk.o) (po_Fr : Port P) (BA Wpd : P)
    (hconj : ∀ k ∈ env.okeys po_Fr.i, ({ k with q := k.q.conj } : OKey O K) ∈ env.okeys po_Fr.i)
    (hr : ∀ k ∈ env.okeys po_Fr.i, env.reject k.cls = false)
    (hk : (⟨l.opt, l.cls, l.pol, .lower⟩ : OKey O K) ∈ env.okeys po_Fr.i)
    (hB : Balanced (env.skeys BA)) (hW : Balanced (env.skeys Wpd)) {cs : List (Coupling P (Key O K) F)}
    (h : pd_setup env po_Fr BA Wpd = .ok cs) (x : P × Key O K → F)
    (hw : ∀ p ∈ [e.po_Fr, e.po_Bk, po_Fr], Within env x p.i)
    (hb1 : ∀ k, x (e.po_Fr.i, .opt k) = ((l.setup env).map (fun c => c.into x (l.po_Fr.o, .opt k))).sum)
    (hb2 : ∀ k, x (po_Fr.i, .opt k) = ((e.setup env).map (fun c => c.into x (e.po_Bk.o, .opt k))).sum)
    {δ : K} (hδ : δ ∈ env.skeys Wpd) :
    (cs.map (fun c => c.into x (Wpd, .sig δ))).sum = if δ = 0 then l.power_W else 0 := by
  have hsrc : ∀ k, x (on e.po_Fr.i k) = (if l.key .lower = k then env.sqrt l.power_W * env.exp (env.i * l.phase_rad) else 0) +
      (if l.key .raise = k then env.sqrt l.power_W * env.exp (-env.i * l.phase_rad) else 0) := by
    intro k
    refine (hb1 k).trans ?_
    show total (l.setup env) x (on l.po_Fr.o k) = _
    unfold Laser.setup
    rw [total_cons, total_single, into_source, into_source]
    have : ∀ q, (on l.po_Fr.o (l.key q) = on l.po_Fr.o k) ↔ l.key q = k := by
      intro q
      constructor
      · intro h
        injection h with _ h
        injection h
      · intro h
        rw [h]
    simp only [this]
  have hx : ∀ k, x (on po_Fr.i k) = e.cplg env k * x (on e.po_Fr.i k) := fun k =>
    (hb2 k).trans (space_total e hne (hw _ (by simp)) (hw _ (by simp)) k).1
  have hP := hw po_Fr (by simp)
  rw [C65_coefficient env h2 ht po_Fr BA Wpd hP.1 hconj hr hB hW h x hP.2 hδ]
  have hkR : l.key .raise ∈ env.okeys po_Fr.i := hconj _ hk
  have hzero : ∀ k, k ≠ l.key .lower → k ≠ l.key .raise → x (on po_Fr.i k) = 0 := by
    intro k h1 h2
    rw [hx, hsrc, if_neg (fun h => h1 h.symm), if_neg (fun h => h2 h.symm), add_zero, mul_zero]
  rw [Finset.sum_eq_single (l.key .lower), Finset.sum_eq_single (l.key .raise)]
  · by_cases hd : δ = 0
    · rw [if_pos hd, if_pos hd, if_pos ⟨rfl, rfl, rfl, rfl, by rw [hd, add_zero]; rfl⟩, one_mul]
      show x (on po_Fr.i _) * x (on po_Fr.i _) = _
      rw [hx, hx, hsrc, hsrc, if_pos rfl, if_pos rfl, if_neg (by intro h; cases h), if_neg (by intro h; cases h),
        add_zero, zero_add]
      have h1 : e.cplg env (l.key .lower) * e.cplg env (l.key .raise) = 1 := by
        show e.phase_lower env (env.iwavelen_m l.opt) (env.freq l.cls) *
          e.phase_raise env (env.iwavelen_m l.opt) (env.freq l.cls) = 1
        unfold Space.phase_lower Space.phase_raise
        rw [← hexp, neg_mul, neg_add_cancel, h0]
      have h3 : env.exp (env.i * l.phase_rad) * env.exp (-env.i * l.phase_rad) = 1 := by
        rw [← hexp, neg_mul, add_neg_cancel, h0]
      calc _ = (e.cplg env (l.key .lower) * e.cplg env (l.key .raise)) *
            (env.exp (env.i * l.phase_rad) * env.exp (-env.i * l.phase_rad)) *
            (env.sqrt l.power_W * env.sqrt l.power_W) := by ring
        _ = _ := by rw [h1, h3, hsq, one_mul, one_mul]
    · rw [if_neg hd, if_neg hd, if_neg, mul_zero]
      rintro ⟨_, _, _, _, h5⟩
      have h6 : l.cls + 0 = l.cls + δ := by rw [add_zero]; exact h5
      exact hd (add_left_cancel h6).symm
  · intro b _ hb
    by_cases hbl : b = l.key .lower
    · rw [if_neg]
      rintro ⟨_, h2, _⟩
      rw [hbl] at h2
      cases h2
    · rw [hzero b hbl hb, mul_zero, ite_self]
  · intro h
    exact absurd (List.mem_toFinset.2 hkR) h
  · intro a _ ha
    apply Finset.sum_eq_zero
    intro b _
    by_cases har : a = l.key .raise
    · rw [if_neg]
      rintro ⟨h1, _⟩
      rw [har] at h1
      cases h1
    · rw [hzero a ha har, zero_mul, ite_self]
  · intro h
    exact absurd (List.mem_toFinset.2 hk) h

/-! ## rotators -/

/-- The key with the other polarization. -/
def OKey.flip (k : OKey O K) : OKey O K := { k with pol := k.pol.swap }

theorem OKey.flip_flip (k : OKey O K) : k.flip.flip = k := by
  obtain ⟨o, c, p, q⟩ := k
  cases p <;> rfl

def Pol.pick {α : Type} (p : Pol) (a b : α) : α := match p with | .S => a | .P => b

theorem rotate_total {x : P × Key O K → F} {a : P} (hw : Within env x a) (b : P) (c s : F) (r : P) (j : OKey O K) :
    total ((env.okeys a).flatMap (fun k => rotate_key a b k c s)) x (on r j) =
      if b = r then c * x (on a j) + j.pol.pick (-s) s * x (on a j.flip) else 0 := by
  have h1 : ∀ k ∈ env.okeys a, total (rotate_key a b k c s) x (on r j) =
      (Coupling.edge (on a k) (on b k) c).into x (on r j) +
      (Coupling.edge (on a k) (on b k.flip) (k.pol.pick s (-s))).into x (on r j) := by
    rintro ⟨o, f, p, q⟩ _
    cases p <;> · unfold rotate_key; rw [total_cons, total_single]; rfl
  rw [total_flatMap, List.map_congr_left h1, List.sum_map_add, ← total_map, ← total_map]
  have h2 := kept_total hw b (fun _ => c) r j
  have h3 := moved_total hw b OKey.flip_flip (fun k => k.pol.pick s (-s)) r j
  rw [h2, h3]
  have h4 : j.flip.pol.pick s (-s) = j.pol.pick (-s) s := by
    obtain ⟨o, f, p, q⟩ := j
    cases p <;> rfl
  rw [h4]
  split_ifs
  · rfl
  · rw [add_zero]

theorem quarter_total {x : P × Key O K → F} {a : P} (hw : Within env x a) (b : P) (s : F) (r : P) (j : OKey O K) :
    total ((env.okeys a).flatMap (fun k => quarter_key a b k s)) x (on r j) =
      if b = r then j.pol.pick (-s) s * x (on a j.flip) else 0 := by
  have h1 : ∀ k ∈ env.okeys a, total (quarter_key a b k s) x (on r j) =
      (Coupling.edge (on a k) (on b k.flip) (k.pol.pick s (-s))).into x (on r j) := by
    rintro ⟨o, f, p, q⟩ _
    cases p <;> · unfold quarter_key; rw [total_single]; rfl
  rw [total_flatMap, List.map_congr_left h1, ← total_map, moved_total hw b OKey.flip_flip (fun k => k.pol.pick s (-s)) r j]
  have h4 : j.flip.pol.pick s (-s) = j.pol.pick (-s) s := by
    obtain ⟨o, f, p, q⟩ := j
    cases p <;> rfl
  rw [h4]

/-- The values of the cosine and of the sine at the multiples of a right angle. -/
structure Angles (env : OEnv P O K F) : Prop where
  cos_zero : env.cos 0 = 1
  sin_zero : env.sin 0 = 0
  cos_pi : env.cos env.pi = -1
  sin_pi : env.sin env.pi = 0
  cos_half : env.cos (env.pi / 2) = 0
  sin_half : env.sin (env.pi / 2) = 1
  cos_neg : ∀ a, env.cos (-a) = env.cos a
  sin_neg : ∀ a, env.sin (-a) = -env.sin a
  cos_add : ∀ a b, env.cos (a + b) = env.cos a * env.cos b - env.sin a * env.sin b
  sin_add : ∀ a b, env.sin (a + b) = env.sin a * env.cos b + env.cos a * env.sin b

theorem Angles.sq (h : Angles env) (a : F) : env.cos a * env.cos a + env.sin a * env.sin a = 1 := by
  have := h.cos_add a (-a)
  rw [add_neg_cancel, h.cos_zero, h.cos_neg, h.sin_neg] at this
  linear_combination -this

theorem Angles.cos_three (h : Angles env) (h2 : (2 : F) ≠ 0) : env.cos (3 * env.pi / 2) = 0 := by
  rw [show 3 * env.pi / 2 = env.pi + env.pi / 2 by field_simp; ring, h.cos_add, h.cos_half, h.sin_pi]
  ring

theorem Angles.sin_three (h : Angles env) (h2 : (2 : F) ≠ 0) : env.sin (3 * env.pi / 2) = -1 := by
  rw [show 3 * env.pi / 2 = env.pi + env.pi / 2 by field_simp; ring, h.sin_add, h.sin_half, h.cos_pi, h.cos_half]
  ring

/-- All branches of a rotator are the rotation by its angle. -/
theorem run_total (hA : Angles env) [CharZero F] {x : P × Key O K → F} (e : Rotator P F) {back : F}
    (hne : e.po_Fr.o ≠ e.po_Bk.o) (hF : Within env x e.po_Fr.i) (hB : Within env x e.po_Bk.i) {θ : F}
    (hθ : θ = e.rotate_deg / 180 * env.pi) (j : OKey O K) :
    total (e.run env back) x (on e.po_Bk.o j) =
      env.cos θ * x (on e.po_Fr.i j) + j.pol.pick (-env.sin θ) (env.sin θ) * x (on e.po_Fr.i j.flip) ∧
    total (e.run env back) x (on e.po_Fr.o j) =
      env.cos θ * x (on e.po_Bk.i j) + j.pol.pick (-(back * env.sin θ)) (back * env.sin θ) * x (on e.po_Bk.i j.flip) := by
  have hpick0 : ∀ p : Pol, p.pick (-(0 : F)) 0 = 0 := by
    intro p
    cases p
    · exact neg_zero
    · rfl
  have h180 : (180 : F) ≠ 0 := by norm_num
  have h2 : (2 : F) ≠ 0 := by norm_num
  unfold Rotator.run
  dsimp only
  by_cases h1 : e.rotate_deg = 0 ∨ e.rotate_deg = 180 ∨ e.rotate_deg = -180
  · rw [if_pos h1]
    have hs : env.sin θ = 0 := by
      rcases h1 with h | h | h
      · rw [hθ, h, zero_div, zero_mul, hA.sin_zero]
      · rw [hθ, h, div_self h180, one_mul, hA.sin_pi]
      · rw [hθ, h, neg_div, div_self h180, neg_one_mul, hA.sin_neg, hA.sin_pi, neg_zero]
    have hc : env.cos θ = if e.rotate_deg = 0 then 1 else -1 := by
      rcases h1 with h | h | h
      · rw [hθ, if_pos h, h, zero_div, zero_mul, hA.cos_zero]
      · rw [hθ, if_neg (by rw [h]; exact h180), h, div_self h180, one_mul, hA.cos_pi]
      · rw [hθ, if_neg (by rw [h]; exact neg_ne_zero.2 h180), h, neg_div, div_self h180, neg_one_mul, hA.cos_neg, hA.cos_pi]
    have := both_ways hF hB hne (fun _ => env.cos θ) j
    rw [hs, mul_zero, hpick0, zero_mul, add_zero, zero_mul, add_zero, ← hc]
    exact this
  · rw [if_neg h1]
    by_cases h3 : e.rotate_deg = 90 ∨ e.rotate_deg = -90 ∨ e.rotate_deg = 270 ∨ e.rotate_deg = -270
    · rw [if_pos h3]
      have e90 : (90 : F) / 180 * env.pi = env.pi / 2 := by linear_combination (0 : F)
      have e270 : (270 : F) / 180 * env.pi = 3 * env.pi / 2 := by linear_combination (0 : F)
      have hc : env.cos θ = 0 := by
        rcases h3 with h | h | h | h
        · rw [hθ, h, e90, hA.cos_half]
        · rw [hθ, h, neg_div, neg_mul, hA.cos_neg, e90, hA.cos_half]
        · rw [hθ, h, e270, hA.cos_three h2]
        · rw [hθ, h, neg_div, neg_mul, hA.cos_neg, e270, hA.cos_three h2]
      have hs : env.sin θ = if e.rotate_deg = 90 ∨ e.rotate_deg = -270 then 1 else -1 := by
        rcases h3 with h | h | h | h
        · rw [if_pos (Or.inl h), hθ, h, e90, hA.sin_half]
        · rw [if_neg (by rw [h]; norm_num), hθ, h, neg_div, neg_mul, hA.sin_neg, e90, hA.sin_half]
        · rw [if_neg (by rw [h]; norm_num), hθ, h, e270, hA.sin_three h2]
        · rw [if_pos (Or.inr h), hθ, h, neg_div, neg_mul, hA.sin_neg, e270, hA.sin_three h2, neg_neg]
      rw [← hs, hc, zero_mul, zero_mul, zero_add, zero_add]
      constructor
      · rw [total_append, quarter_total hF, quarter_total hB, if_pos rfl, if_neg hne, add_zero]
      · rw [total_append, quarter_total hF, quarter_total hB, if_pos rfl, if_neg (Ne.symm hne), zero_add]
    · rw [if_neg h3, ← hθ]
      constructor
      · rw [total_append, rotate_total hF, rotate_total hB, if_pos rfl, if_neg hne, add_zero]
      · rw [total_append, rotate_total hF, rotate_total hB, if_pos rfl, if_neg (Ne.symm hne), zero_add]

/-- **C73.**  For every angle, a rotator turns the polarization of the light it gets at the front by its angle.  Light it
gets at the back is turned back by a `PolarizationRotator`, and turned in the same sense by a `FaradayRotator`. -/
theorem C73_turn (hA : Angles env) [CharZero F] {x : P × Key O K → F} (e : Rotator P F)
    (hne : e.po_Fr.o ≠ e.po_Bk.o) (hF : Within env x e.po_Fr.i) (hB : Within env x e.po_Bk.i) {θ : F}
    (hθ : θ = e.rotate_deg / 180 * env.pi) (o : O) (f : K) (q : Quantum) :
    (∀ cs ∈ [e.polarization env, e.faraday env],
      (cs.map (fun c => c.into x (e.po_Bk.o, .opt ⟨o, f, .S, q⟩))).sum =
        env.cos θ * x (e.po_Fr.i, .opt ⟨o, f, .S, q⟩) - env.sin θ * x (e.po_Fr.i, .opt ⟨o, f, .P, q⟩) ∧
      (cs.map (fun c => c.into x (e.po_Bk.o, .opt ⟨o, f, .P, q⟩))).sum =
        env.sin θ * x (e.po_Fr.i, .opt ⟨o, f, .S, q⟩) + env.cos θ * x (e.po_Fr.i, .opt ⟨o, f, .P, q⟩)) ∧
    ((e.polarization env).map (fun c => c.into x (e.po_Fr.o, .opt ⟨o, f, .S, q⟩))).sum =
      env.cos θ * x (e.po_Bk.i, .opt ⟨o, f, .S, q⟩) + env.sin θ * x (e.po_Bk.i, .opt ⟨o, f, .P, q⟩) ∧
    ((e.polarization env).map (fun c => c.into x (e.po_Fr.o, .opt ⟨o, f, .P, q⟩))).sum =
      -(env.sin θ * x (e.po_Bk.i, .opt ⟨o, f, .S, q⟩)) + env.cos θ * x (e.po_Bk.i, .opt ⟨o, f, .P, q⟩) ∧
    ((e.faraday env).map (fun c => c.into x (e.po_Fr.o, .opt ⟨o, f, .S, q⟩))).sum =
      env.cos θ * x (e.po_Bk.i, .opt ⟨o, f, .S, q⟩) - env.sin θ * x (e.po_Bk.i, .opt ⟨o, f, .P, q⟩) ∧
    ((e.faraday env).map (fun c => c.into x (e.po_Fr.o, .opt ⟨o, f, .P, q⟩))).sum =
      env.sin θ * x (e.po_Bk.i, .opt ⟨o, f, .S, q⟩) + env.cos θ * x (e.po_Bk.i, .opt ⟨o, f, .P, q⟩) := by
  have hS := fun back => run_total hA e (back := back) hne hF hB hθ ⟨o, f, .S, q⟩
  have hP := fun back => run_total hA e (back := back) hne hF hB hθ ⟨o, f, .P, q⟩
  refine ⟨?_, ?_, ?_, ?_, ?_⟩
  · intro cs hcs
    have hb : ∃ back, cs = e.run env back := by
      simp only [List.mem_cons, List.not_mem_nil, or_false] at hcs
      rcases hcs with rfl | rfl
      · exact ⟨_, rfl⟩
      · exact ⟨_, rfl⟩
    obtain ⟨back, rfl⟩ := hb
    refine ⟨(hS back).1.trans ?_, (hP back).1.trans ?_⟩
    · simp only [Pol.pick, OKey.flip, Pol.swap]
      ring
    · simp only [Pol.pick, OKey.flip, Pol.swap]
      ring
  · refine (hS (-1)).2.trans ?_
    simp only [Pol.pick, OKey.flip, Pol.swap]
    ring
  · refine (hP (-1)).2.trans ?_
    simp only [Pol.pick, OKey.flip, Pol.swap]
    ring
  · refine (hS 1).2.trans ?_
    simp only [Pol.pick, OKey.flip, Pol.swap]
    ring
  · refine (hP 1).2.trans ?_
    simp only [Pol.pick, OKey.flip, Pol.swap]
    ring

/-- **C73.**  Light that is sent back into a `PolarizationRotator` leaves with the polarization it had; light that is sent
back into a `FaradayRotator` has turned by twice the angle. -/
theorem C73_return (hA : Angles env) [CharZero F] {x : P × Key O K → F} (e : Rotator P F)
    (hne : e.po_Fr.o ≠ e.po_Bk.o) (hF : Within env x e.po_Fr.i) (hB : Within env x e.po_Bk.i) {θ : F}
    (hθ : θ = e.rotate_deg / 180 * env.pi) (o : O) (f : K) (q : Quantum) :
    ((∀ p, x (e.po_Bk.i, .opt ⟨o, f, p, q⟩) =
        ((e.polarization env).map (fun c => c.into x (e.po_Bk.o, .opt ⟨o, f, p, q⟩))).sum) →
      ∀ p, ((e.polarization env).map (fun c => c.into x (e.po_Fr.o, .opt ⟨o, f, p, q⟩))).sum =
        x (e.po_Fr.i, .opt ⟨o, f, p, q⟩)) ∧
    ((∀ p, x (e.po_Bk.i, .opt ⟨o, f, p, q⟩) =
        ((e.faraday env).map (fun c => c.into x (e.po_Bk.o, .opt ⟨o, f, p, q⟩))).sum) →
      ((e.faraday env).map (fun c => c.into x (e.po_Fr.o, .opt ⟨o, f, .S, q⟩))).sum =
        env.cos (2 * θ) * x (e.po_Fr.i, .opt ⟨o, f, .S, q⟩) - env.sin (2 * θ) * x (e.po_Fr.i, .opt ⟨o, f, .P, q⟩) ∧
      ((e.faraday env).map (fun c => c.into x (e.po_Fr.o, .opt ⟨o, f, .P, q⟩))).sum =
        env.sin (2 * θ) * x (e.po_Fr.i, .opt ⟨o, f, .S, q⟩) + env.cos (2 * θ) * x (e.po_Fr.i, .opt ⟨o, f, .P, q⟩)) := by
  obtain ⟨h1, h2, h3, h4, h5⟩ := C73_turn hA e hne hF hB hθ o f q
  have hsq := hA.sq θ
  constructor
  · intro hr p
    have hf := h1 _ List.mem_cons_self
    have rS := (hr .S).trans hf.1
    have rP := (hr .P).trans hf.2
    cases p with
    | S =>
      rw [h2, rS, rP]
      linear_combination x (e.po_Fr.i, .opt ⟨o, f, .S, q⟩) * hsq
    | P =>
      rw [h3, rS, rP]
      linear_combination x (e.po_Fr.i, .opt ⟨o, f, .P, q⟩) * hsq
  · intro hr
    have hf := h1 (e.faraday env) (by simp)
    have rS := (hr .S).trans hf.1
    have rP := (hr .P).trans hf.2
    rw [h4, h5, rS, rP, two_mul, hA.cos_add, hA.sin_add]
    constructor <;> ring

/-- **C73.**  A rotator keeps the power of the light in the two polarizations together. -/
theorem C73_power (hA : Angles env) [CharZero F] {x : P × Key O K → F} (e : Rotator P F)
    (hne : e.po_Fr.o ≠ e.po_Bk.o) (hF : Within env x e.po_Fr.i) (hB : Within env x e.po_Bk.i)
    (hd : star e.rotate_deg = e.rotate_deg) (hpi : star env.pi = env.pi)
    (hcos : ∀ z, star (env.cos z) = env.cos (star z)) (hsin : ∀ z, star (env.sin z) = env.sin (star z))
    {cs : List (Coupling P (Key O K) F)} (hcs : cs ∈ [e.polarization env, e.faraday env]) {p r : Port P}
    (hpr : (p, r) = (e.po_Fr, e.po_Bk) ∨ (p, r) = (e.po_Bk, e.po_Fr)) (o : O) (f : K) (q : Quantum) :
    ([Pol.S, .P].map (fun w => (cs.map (fun c => c.into x (r.o, .opt ⟨o, f, w, q⟩))).sum *
      star (cs.map (fun c => c.into x (r.o, .opt ⟨o, f, w, q⟩))).sum)).sum =
    ([Pol.S, .P].map (fun w => x (p.i, .opt ⟨o, f, w, q⟩) * star (x (p.i, .opt ⟨o, f, w, q⟩)))).sum := by
  obtain ⟨h1, h2, h3, h4, h5⟩ := C73_turn hA e hne hF hB rfl o f q
  have hθ : star (e.rotate_deg / 180 * env.pi) = e.rotate_deg / 180 * env.pi := by
    rw [star_mul', Signal.star_div_, hd, hpi, star_ofNat]
  set θ := e.rotate_deg / 180 * env.pi
  have hc : star (env.cos θ) = env.cos θ := by rw [hcos, hθ]
  have hs : star (env.sin θ) = env.sin θ := by rw [hsin, hθ]
  have hsq := hA.sq θ
  simp only [List.map_cons, List.map_nil, List.sum_cons, List.sum_nil, add_zero]
  have fin : ∀ a b c d u v : F, a = env.cos θ * u - env.sin θ * v → b = env.sin θ * u + env.cos θ * v →
      a * star a + b * star b = u * star u + v * star v := by
    intro a b _ _ u v ha hb
    rw [ha, hb]
    simp only [star_sub, star_add, star_mul', hc, hs]
    linear_combination (u * star u + v * star v) * hsq
  have fin' : ∀ a b u v : F, a = env.cos θ * u + env.sin θ * v → b = -(env.sin θ * u) + env.cos θ * v →
      a * star a + b * star b = u * star u + v * star v := by
    intro a b u v ha hb
    rw [ha, hb]
    simp only [star_neg, star_add, star_mul', hc, hs]
    linear_combination (u * star u + v * star v) * hsq
  rcases hpr with h | h
  · cases h
    exact fin _ _ 0 0 _ _ (h1 cs hcs).1 (h1 cs hcs).2
  · cases h
    simp only [List.mem_cons, List.not_mem_nil, or_false] at hcs
    rcases hcs with rfl | rfl
    · exact fin' _ _ _ _ h2 h3
    · exact fin _ _ 0 0 _ _ h4 h5

end Optics
