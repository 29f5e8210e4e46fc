import Mathlib.Data.List.Rotate
import Verif.Optics.Passive

/-!
# Wave plates, selectors and circulators (C74-C76)
-/

set_option linter.unusedSectionVars false

namespace Optics
open Py Inject Circuit
open Signal (Balanced wave)
open scoped List

variable {P O K F : Type} [DecidableEq P] [DecidableEq O] [DecidableEq K] [AddCommGroup K] [Field F] [StarRing F]
  [DecidableEq F]
variable {env : OEnv P O K F}

/-! ## mounted wave plates -/

theorem both_elsewhere {x : P × Key O K → F} {p q : Port P} (hp : Within env x p.i) (hq : Within env x q.i)
    (v : OKey O K → F) {r : P} (h1 : p.o ≠ r) (h2 : q.o ≠ r) (k : OKey O K) :
    total ([(p, q), (q, p)].flatMap (fun pq => (env.okeys pq.1.i).map
      (fun k => Coupling.edge (on pq.1.i k) (on pq.2.o k) (v k)))) x (on r k) = 0 := by
  rw [total_flatMap, List.map_cons, List.map_cons, List.map_nil, List.sum_cons, List.sum_cons, List.sum_nil,
      kept_total hp, kept_total hq, if_neg h1, if_neg h2, add_zero, add_zero]

theorem run_elsewhere {x : P × Key O K → F} (e : Rotator P F) (back : F) (hF : Within env x e.po_Fr.i)
    (hB : Within env x e.po_Bk.i) {r : P} (h1 : e.po_Fr.o ≠ r) (h2 : e.po_Bk.o ≠ r) (k : OKey O K) :
    total (e.run env back) x (on r k) = 0 := by
  unfold Rotator.run
  dsimp only
  split_ifs
  · exact both_elsewhere hF hB _ h1 h2 k
  · exact both_elsewhere hF hB _ h1 h2 k
  · rw [total_append, quarter_total hF, quarter_total hB, if_neg h1, if_neg h2, add_zero]
  · rw [total_append, quarter_total hF, quarter_total hB, if_neg h1, if_neg h2, add_zero]
  · rw [total_append, rotate_total hF, rotate_total hB, if_neg h1, if_neg h2, add_zero]

namespace Mount

/-- The nodes of a mount: inputs and outputs of the six ports. -/
def nodes (m : Mount P F) : List P :=
  [m.coord_Fr_po_Fr.i, m.coord_Fr_po_Fr.o, m.coord_Fr_po_Bk.i, m.coord_Fr_po_Bk.o, m.plate_po_Fr.i, m.plate_po_Fr.o,
    m.plate_po_Bk.i, m.plate_po_Bk.o, m.coord_Bk_po_Fr.i, m.coord_Bk_po_Fr.o, m.coord_Bk_po_Bk.i, m.coord_Bk_po_Bk.o]

/-- The nodes between the two outer ports. -/
def inner (m : Mount P F) : List P :=
  [m.coord_Fr_po_Bk.i, m.coord_Fr_po_Bk.o, m.plate_po_Fr.i, m.plate_po_Fr.o, m.plate_po_Bk.i, m.plate_po_Bk.o,
    m.coord_Bk_po_Fr.i, m.coord_Bk_po_Fr.o]

/-- The total over the seven parts. -/
theorem setup_total (m : Mount P F) (x : P × Key O K → F) (t : P × Key O K) : total (m.setup env) x t =
    total (m.coord_Fr.run env (-1)) x t + total (m.plate.setup env) x t + total (m.coord_Bk.run env (-1)) x t +
    total (owire_setup env m.coord_Fr_po_Bk.o m.plate_po_Fr.i) x t +
    total (owire_setup env m.plate_po_Fr.o m.coord_Fr_po_Bk.i) x t +
    total (owire_setup env m.plate_po_Bk.o m.coord_Bk_po_Fr.i) x t +
    total (owire_setup env m.coord_Bk_po_Fr.o m.plate_po_Bk.i) x t := by
  unfold setup Rotator.polarization
  simp only [List.flatten_cons, List.flatten_nil, total_append, total_nil]
  ring

theorem wire_total {x : P × Key O K → F} {a : P} (hw : Within env x a) (b r : P) (k : OKey O K) :
    total (owire_setup env a b) x (on r k) = if b = r then x (on a k) else 0 := by
  have := kept_total hw b (fun _ => 1) r k
  rw [one_mul] at this
  exact this

/-- The plate's factor: `a` for the lowering and its conjugate for the raising fields. -/
theorem plate_cplg (m : Mount P F) (k : OKey O K) :
    m.plate.cplg k = k.pol.pick (k.q.pick m.cplgS (star m.cplgS)) (k.q.pick m.cplgP (star m.cplgP)) := by
  obtain ⟨o, f, p, q⟩ := k
  cases p <;> cases q <;> rfl

set_option maxHeartbeats 1000000 in
/-- what a mounted plate does -/
theorem mount_total (hA : Angles env) [CharZero F] (m : Mount P F) (hd : m.nodes.Nodup) {x : P × Key O K → F}
    (hw : ∀ p ∈ m.nodes, Within env x p)
    (hx : ∀ p ∈ m.inner, ∀ k, x (on p k) = total (m.setup env) x (on p k)) {θ : F}
    (hθ : θ = m.rotate_deg / 180 * env.pi) (o : O) (f : K) (q : Quantum) {a b : F} (ha : a = q.pick m.cplgS (star m.cplgS))
    (hb : b = q.pick m.cplgP (star m.cplgP)) {p r : Port P}
    (hpr : (p, r) = (m.coord_Fr_po_Fr, m.coord_Bk_po_Bk) ∨ (p, r) = (m.coord_Bk_po_Bk, m.coord_Fr_po_Fr)) :
    total (m.setup env) x (on r.o ⟨o, f, .S, q⟩) =
      (a * (env.cos θ * env.cos θ) + b * (env.sin θ * env.sin θ)) * x (on p.i ⟨o, f, .S, q⟩) +
        (b - a) * (env.sin θ * env.cos θ) * x (on p.i ⟨o, f, .P, q⟩) ∧
    total (m.setup env) x (on r.o ⟨o, f, .P, q⟩) =
      (b - a) * (env.sin θ * env.cos θ) * x (on p.i ⟨o, f, .S, q⟩) +
        (a * (env.sin θ * env.sin θ) + b * (env.cos θ * env.cos θ)) * x (on p.i ⟨o, f, .P, q⟩) := by
  have w : ∀ p ∈ m.nodes, Within env x p := hw
  simp only [nodes, List.mem_cons, List.not_mem_nil, or_false, forall_eq_or_imp, forall_eq] at w
  obtain ⟨w1, w2, w3, w4, w5, w6, w7, w8, w9, w10, w11, w12⟩ := w
  simp only [nodes, List.nodup_cons, List.mem_cons, List.not_mem_nil, or_false, not_or, List.nodup_nil, and_true,
    not_false_iff] at hd
  obtain ⟨⟨a1, a2, a3, a4, a5, a6, a7, a8, a9, a10, a11⟩, ⟨b2, b3, b4, b5, b6, b7, b8, b9, b10, b11⟩,
    ⟨c3, c4, c5, c6, c7, c8, c9, c10, c11⟩, ⟨d4, d5, d6, d7, d8, d9, d10, d11⟩, ⟨e5, e6, e7, e8, e9, e10, e11⟩,
    ⟨f6, f7, f8, f9, f10, f11⟩, ⟨g7, g8, g9, g10, g11⟩, ⟨h8, h9, h10, h11⟩, ⟨i9, i10, i11⟩, ⟨j10, j11⟩, k11⟩ := hd
  have hθ' : -θ = m.coord_Bk.rotate_deg / 180 * env.pi := by
    show -θ = -m.rotate_deg / 180 * env.pi
    rw [hθ]
    ring
  -- the totals of the seven parts at a node
  have rotF := fun k => run_total hA (x := x) m.coord_Fr (back := -1) (show m.coord_Fr_po_Fr.o ≠ m.coord_Fr_po_Bk.o from b3)
    w1 w3 hθ k
  have rotB := fun k => run_total hA (x := x) m.coord_Bk (back := -1) (show m.coord_Bk_po_Fr.o ≠ m.coord_Bk_po_Bk.o from j11)
    w9 w11 hθ' k
  have plt := fun k => both_ways (x := x) w5 w7 (show m.plate_po_Fr.o ≠ m.plate_po_Bk.o from f7) (m.plate.cplg) k
  have zF : ∀ {r : P}, m.coord_Fr_po_Fr.o ≠ r → m.coord_Fr_po_Bk.o ≠ r → ∀ k,
      total (m.coord_Fr.run env (-1)) x (on r k) = 0 := fun h1 h2 k => run_elsewhere m.coord_Fr _ w1 w3 h1 h2 k
  have zB : ∀ {r : P}, m.coord_Bk_po_Fr.o ≠ r → m.coord_Bk_po_Bk.o ≠ r → ∀ k,
      total (m.coord_Bk.run env (-1)) x (on r k) = 0 := fun h1 h2 k => run_elsewhere m.coord_Bk _ w9 w11 h1 h2 k
  have zP : ∀ {r : P}, m.plate_po_Fr.o ≠ r → m.plate_po_Bk.o ≠ r → ∀ k,
      total (m.plate.setup env) x (on r k) = 0 := fun h1 h2 k => both_elsewhere w5 w7 _ h1 h2 k
  have zero : ∀ {r : P}, (m.plate_po_Fr.i ≠ r) → (m.coord_Fr_po_Bk.i ≠ r) → (m.coord_Bk_po_Fr.i ≠ r) →
      (m.plate_po_Bk.i ≠ r) → ∀ k,
      total (m.setup env) x (on r k) = total (m.coord_Fr.run env (-1)) x (on r k) +
        total (m.plate.setup env) x (on r k) + total (m.coord_Bk.run env (-1)) x (on r k) := by
    intro r h1 h2 h3 h4 k
    rw [setup_total, wire_total w4, wire_total w6, wire_total w8, wire_total w10, if_neg h1, if_neg h2, if_neg h3, if_neg h4]
    ring
  have x1 : ∀ k, x (on m.plate_po_Fr.i k) = total (m.coord_Fr.run env (-1)) x (on m.coord_Fr_po_Bk.o k) := by
    intro k
    rw [hx m.plate_po_Fr.i (by simp [inner]), setup_total, wire_total w4, wire_total w6, wire_total w8, wire_total w10,
      if_pos rfl, if_neg (Ne.symm (Ne.symm c4)), if_neg (Ne.symm e8), if_neg (Ne.symm e6), zF b4 d4, zB (Ne.symm e9) (Ne.symm e11),
      zP (Ne.symm e5) (Ne.symm e7), hx m.coord_Fr_po_Bk.o (by simp [inner]),
      zero (Ne.symm d4) c3 (Ne.symm d8) (Ne.symm d6), zP (Ne.symm d5) (Ne.symm d7), zB (Ne.symm d9) (Ne.symm d11)]
    ring
  have x2 : ∀ k, x (on m.coord_Bk_po_Fr.i k) = total (m.plate.setup env) x (on m.plate_po_Bk.o k) := by
    intro k
    rw [hx m.coord_Bk_po_Fr.i (by simp [inner]), setup_total, wire_total w4, wire_total w6, wire_total w8, wire_total w10,
      if_neg e8, if_neg c8, if_pos rfl, if_neg g8, zF b8 d8, zB (Ne.symm i9) (Ne.symm i11),
      zP f8 h8, hx m.plate_po_Bk.o (by simp [inner]),
      zero e7 c7 (Ne.symm h8) g7, zF b7 d7, zB (Ne.symm h9) (Ne.symm h11)]
    ring
  have x3 : ∀ k, x (on m.plate_po_Bk.i k) = total (m.coord_Bk.run env (-1)) x (on m.coord_Bk_po_Fr.o k) := by
    intro k
    rw [hx m.plate_po_Bk.i (by simp [inner]), setup_total, wire_total w4, wire_total w6, wire_total w8, wire_total w10,
      if_neg e6, if_neg c6, if_neg (Ne.symm g8), if_pos rfl, zF b6 d6, zB (Ne.symm g9) (Ne.symm g11),
      zP f6 (Ne.symm g7), hx m.coord_Bk_po_Fr.o (by simp [inner]),
      zero e9 c9 i9 g9, zF b9 d9, zP f9 h9]
    ring
  have x4 : ∀ k, x (on m.coord_Fr_po_Bk.i k) = total (m.plate.setup env) x (on m.plate_po_Fr.o k) := by
    intro k
    rw [hx m.coord_Fr_po_Bk.i (by simp [inner]), setup_total, wire_total w4, wire_total w6, wire_total w8, wire_total w10,
      if_neg (Ne.symm c4), if_pos rfl, if_neg (Ne.symm c8), if_neg (Ne.symm c6), zF b2 (Ne.symm c3),
      zB (Ne.symm c9) (Ne.symm c11), zP (Ne.symm c5) (Ne.symm c7), hx m.plate_po_Fr.o (by simp [inner]),
      zero e5 c5 (Ne.symm f8) (Ne.symm f6), zF b5 d5, zB (Ne.symm f9) (Ne.symm f11)]
    ring
  have pS : m.plate.cplg (⟨o, f, .S, q⟩ : OKey O K) = a := by rw [plate_cplg, ha]; rfl
  have pP : m.plate.cplg (⟨o, f, .P, q⟩ : OKey O K) = b := by rw [plate_cplg, hb]; rfl
  have flS : (⟨o, f, .S, q⟩ : OKey O K).flip = ⟨o, f, .P, q⟩ := rfl
  have flP : (⟨o, f, .P, q⟩ : OKey O K).flip = ⟨o, f, .S, q⟩ := rfl
  rcases hpr with h | h
  · cases h
    have y : ∀ k, total (m.setup env) x (on m.coord_Bk_po_Bk.o k) =
        total (m.coord_Bk.run env (-1)) x (on m.coord_Bk_po_Bk.o k) := by
      intro k
      rw [zero e11 c11 i11 g11, zF b11 d11, zP f11 h11]
      ring
    have s1 := (rotF ⟨o, f, .S, q⟩).1
    have p1 := (rotF ⟨o, f, .P, q⟩).1
    have s3 := (rotB ⟨o, f, .S, q⟩).1
    have p3 := (rotB ⟨o, f, .P, q⟩).1
    have s2 := (plt ⟨o, f, .S, q⟩).1
    have p2 := (plt ⟨o, f, .P, q⟩).1
    change total (m.coord_Fr.run env (-1)) x (on m.coord_Fr_po_Bk.o _) = _ * x (on m.coord_Fr_po_Fr.i _) +
      _ * x (on m.coord_Fr_po_Fr.i _) at s1 p1
    change total (m.coord_Bk.run env (-1)) x (on m.coord_Bk_po_Bk.o _) = _ * x (on m.coord_Bk_po_Fr.i _) +
      _ * x (on m.coord_Bk_po_Fr.i _) at s3 p3
    change total (m.plate.setup env) x (on m.plate_po_Bk.o _) = _ at s2 p2
    rw [y, y, s3, p3, flS, flP, x2, x2, s2, p2, x1, x1, s1, p1, flS, flP, pS, pP, hA.cos_neg, hA.sin_neg]
    simp only [Pol.pick]
    constructor <;> ring
  · cases h
    have y : ∀ k, total (m.setup env) x (on m.coord_Fr_po_Fr.o k) =
        total (m.coord_Fr.run env (-1)) x (on m.coord_Fr_po_Fr.o k) := by
      intro k
      rw [zero (Ne.symm b4) (Ne.symm b2) (Ne.symm b8) (Ne.symm b6), zB (Ne.symm b9) (Ne.symm b11), zP (Ne.symm b5) (Ne.symm b7)]
      ring
    have s1 := (rotF ⟨o, f, .S, q⟩).2
    have p1 := (rotF ⟨o, f, .P, q⟩).2
    have s3 := (rotB ⟨o, f, .S, q⟩).2
    have p3 := (rotB ⟨o, f, .P, q⟩).2
    have s2 := (plt ⟨o, f, .S, q⟩).2
    have p2 := (plt ⟨o, f, .P, q⟩).2
    change total (m.coord_Fr.run env (-1)) x (on m.coord_Fr_po_Fr.o _) = _ * x (on m.coord_Fr_po_Bk.i _) +
      _ * x (on m.coord_Fr_po_Bk.i _) at s1 p1
    change total (m.coord_Bk.run env (-1)) x (on m.coord_Bk_po_Fr.o _) = _ * x (on m.coord_Bk_po_Bk.i _) +
      _ * x (on m.coord_Bk_po_Bk.i _) at s3 p3
    change total (m.plate.setup env) x (on m.plate_po_Fr.o _) = _ at s2 p2
    rw [y, y, s1, p1, flS, flP, x4, x4, s2, p2, x3, x3, s3, p3, flS, flP, pS, pP, hA.cos_neg, hA.sin_neg]
    simp only [Pol.pick]
    constructor <;> ring

/-- A field on a mounted plate: the ports are different, the light inside obeys the couplings, and it has the listed keys. -/
structure Fits (env : OEnv P O K F) (m : Mount P F) (x : P × Key O K → F) : Prop where
  nodup : m.nodes.Nodup
  within : ∀ p ∈ m.nodes, Within env x p
  inner : ∀ p ∈ m.inner, ∀ k, x (p, .opt k) = ((m.setup env).map (fun c => c.into x (p, .opt k))).sum

/-- **C74.**  A half-wave plate that is mounted at the angle `θ` mirrors the polarization at an axis: it turns light in
`PolS` by `-2θ`, in both directions. -/
theorem C74_half (hA : Angles env) [CharZero F] (m : Mount P F) (hS : m.cplgS = 1) (hP : m.cplgP = -1)
    {x : P × Key O K → F} (hx : m.Fits env x) {θ : F} (hθ : θ = m.rotate_deg / 180 * env.pi) (o : O) (f : K) (q : Quantum)
    {p r : Port P}
    (hpr : (p, r) = (m.coord_Fr_po_Fr, m.coord_Bk_po_Bk) ∨ (p, r) = (m.coord_Bk_po_Bk, m.coord_Fr_po_Fr)) :
    ((m.setup env).map (fun c => c.into x (r.o, .opt ⟨o, f, .S, q⟩))).sum =
      env.cos (2 * θ) * x (p.i, .opt ⟨o, f, .S, q⟩) - env.sin (2 * θ) * x (p.i, .opt ⟨o, f, .P, q⟩) ∧
    ((m.setup env).map (fun c => c.into x (r.o, .opt ⟨o, f, .P, q⟩))).sum =
      -(env.sin (2 * θ) * x (p.i, .opt ⟨o, f, .S, q⟩)) - env.cos (2 * θ) * x (p.i, .opt ⟨o, f, .P, q⟩) := by
  have h1 : (1 : F) = q.pick m.cplgS (star m.cplgS) := by
    rw [hS, star_one]
    cases q <;> rfl
  have h2 : (-1 : F) = q.pick m.cplgP (star m.cplgP) := by
    rw [hP, star_neg, star_one]
    cases q <;> rfl
  obtain ⟨hs, hp⟩ := mount_total hA m hx.nodup hx.within hx.inner hθ o f q h1 h2 hpr
  refine ⟨hs.trans ?_, hp.trans ?_⟩
  · rw [two_mul, hA.cos_add, hA.sin_add]
    ring
  · rw [two_mul, hA.cos_add, hA.sin_add]
    ring

/-- **C74.**  Two half-wave plates at the same angle leave the light as it is. -/
theorem C74_half_twice (hA : Angles env) [CharZero F] (m n : Mount P F) (hS : m.cplgS = 1) (hP : m.cplgP = -1)
    (hS' : n.cplgS = 1) (hP' : n.cplgP = -1) (hrot : m.rotate_deg = n.rotate_deg)
    {x : P × Key O K → F} (hx : m.Fits env x) (hx' : n.Fits env x)
    (hb : ∀ k, x (n.coord_Fr_po_Fr.i, .opt k) = ((m.setup env).map (fun c => c.into x (m.coord_Bk_po_Bk.o, .opt k))).sum)
    (k : OKey O K) :
    ((n.setup env).map (fun c => c.into x (n.coord_Bk_po_Bk.o, .opt k))).sum = x (m.coord_Fr_po_Fr.i, .opt k) := by
  obtain ⟨o, f, p, q⟩ := k
  obtain ⟨s1, p1⟩ := C74_half hA m hS hP hx rfl o f q (Or.inl rfl)
  obtain ⟨s2, p2⟩ := C74_half hA n hS' hP' hx' (θ := m.rotate_deg / 180 * env.pi) (by rw [hrot]) o f q (Or.inl rfl)
  rw [hb, hb, s1, p1] at s2 p2
  have hsq := hA.sq (2 * (m.rotate_deg / 180 * env.pi))
  cases p with
  | S =>
    rw [s2]
    linear_combination x (m.coord_Fr_po_Fr.i, .opt ⟨o, f, .S, q⟩) * hsq
  | P =>
    rw [p2]
    linear_combination x (m.coord_Fr_po_Fr.i, .opt ⟨o, f, .P, q⟩) * hsq

/-- **C74.**  Two quarter-wave plates at the same angle act like a half-wave plate at that angle. -/
theorem C74_quarter_twice (hA : Angles env) [CharZero F] {I : F} (hI : I * I = -1) (hIs : star I = -I) (m n : Mount P F)
    (hS : m.cplgS = 1) (hP : m.cplgP = I) (hS' : n.cplgS = 1) (hP' : n.cplgP = I) {θ : F}
    (hθ : θ = m.rotate_deg / 180 * env.pi) (hrot : m.rotate_deg = n.rotate_deg)
    {x : P × Key O K → F} (hx : m.Fits env x) (hx' : n.Fits env x)
    (hb : ∀ k, x (n.coord_Fr_po_Fr.i, .opt k) = ((m.setup env).map (fun c => c.into x (m.coord_Bk_po_Bk.o, .opt k))).sum)
    (o : O) (f : K) (q : Quantum) :
    ((n.setup env).map (fun c => c.into x (n.coord_Bk_po_Bk.o, .opt ⟨o, f, .S, q⟩))).sum =
      env.cos (2 * θ) * x (m.coord_Fr_po_Fr.i, .opt ⟨o, f, .S, q⟩) - env.sin (2 * θ) * x (m.coord_Fr_po_Fr.i, .opt ⟨o, f, .P, q⟩) ∧
    ((n.setup env).map (fun c => c.into x (n.coord_Bk_po_Bk.o, .opt ⟨o, f, .P, q⟩))).sum =
      -(env.sin (2 * θ) * x (m.coord_Fr_po_Fr.i, .opt ⟨o, f, .S, q⟩)) -
        env.cos (2 * θ) * x (m.coord_Fr_po_Fr.i, .opt ⟨o, f, .P, q⟩) := by
  have one : ∀ n : Mount P F, n.cplgS = 1 → (1 : F) = q.pick n.cplgS (star n.cplgS) := by
    intro n h
    rw [h, star_one]
    cases q <;> rfl
  obtain ⟨b, hbm, hbn, hb2⟩ : ∃ b, b = q.pick m.cplgP (star m.cplgP) ∧ b = q.pick n.cplgP (star n.cplgP) ∧ b * b = -1 := by
    refine ⟨_, rfl, by rw [hP, hP'], ?_⟩
    rw [hP, hIs]
    cases q
    · exact hI
    · show -I * -I = -1
      rw [neg_mul_neg, hI]
  obtain ⟨s1, p1⟩ := mount_total hA m hx.nodup hx.within hx.inner hθ o f q (one m hS) hbm (Or.inl rfl)
  obtain ⟨s2, p2⟩ := mount_total hA n hx'.nodup hx'.within hx'.inner (θ := θ) (by rw [hθ, hrot]) o f q (one n hS') hbn (Or.inl rfl)
  have hsq := hA.sq θ
  have e1 : ∀ k, x (on n.coord_Fr_po_Fr.i k) = total (m.setup env) x (on m.coord_Bk_po_Bk.o k) := hb
  rw [e1, e1, s1, p1] at s2 p2
  rw [two_mul, hA.cos_add, hA.sin_add]
  generalize env.cos θ = c at *
  generalize env.sin θ = s at *
  constructor
  · refine s2.trans ?_
    show _ = (c * c - s * s) * x (on m.coord_Fr_po_Fr.i ⟨o, f, .S, q⟩) -
      (s * c + c * s) * x (on m.coord_Fr_po_Fr.i ⟨o, f, .P, q⟩)
    generalize x (on m.coord_Fr_po_Fr.i ⟨o, f, .S, q⟩) = u
    generalize x (on m.coord_Fr_po_Fr.i ⟨o, f, .P, q⟩) = v
    linear_combination (c * c * u + b * b * s * s * u + (b * b - 1) * s * c * v) * hsq + (s * s * u + s * c * v) * hb2
  · refine p2.trans ?_
    show _ = -((s * c + c * s) * x (on m.coord_Fr_po_Fr.i ⟨o, f, .S, q⟩)) -
      (c * c - s * s) * x (on m.coord_Fr_po_Fr.i ⟨o, f, .P, q⟩)
    generalize x (on m.coord_Fr_po_Fr.i ⟨o, f, .S, q⟩) = u
    generalize x (on m.coord_Fr_po_Fr.i ⟨o, f, .P, q⟩) = v
    linear_combination (s * s * v + b * b * c * c * v + (b * b - 1) * s * c * u) * hsq + (c * c * v + s * c * u) * hb2

/-- **C74.**  A mounted plate whose two factors have modulus 1 keeps the power of the two polarizations together. -/
theorem C74_power (hA : Angles env) [CharZero F] (m : Mount P F) (hS : m.cplgS * star m.cplgS = 1)
    (hP : m.cplgP * star m.cplgP = 1) (hd : star m.rotate_deg = m.rotate_deg) (hpi : star env.pi = env.pi)
    (hcos : ∀ z, star (env.cos z) = env.cos (star z)) (hsin : ∀ z, star (env.sin z) = env.sin (star z))
    {x : P × Key O K → F} (hx : m.Fits env x) {p r : Port P}
    (hpr : (p, r) = (m.coord_Fr_po_Fr, m.coord_Bk_po_Bk) ∨ (p, r) = (m.coord_Bk_po_Bk, m.coord_Fr_po_Fr))
    (o : O) (f : K) (q : Quantum) :
    ([Pol.S, .P].map (fun w => ((m.setup env).map (fun c => c.into x (r.o, .opt ⟨o, f, w, q⟩))).sum *
      star ((m.setup env).map (fun c => c.into x (r.o, .opt ⟨o, f, w, q⟩))).sum)).sum =
    ([Pol.S, .P].map (fun w => x (p.i, .opt ⟨o, f, w, q⟩) * star (x (p.i, .opt ⟨o, f, w, q⟩)))).sum := by
  obtain ⟨s1, p1⟩ := mount_total hA m hx.nodup hx.within hx.inner rfl o f q rfl rfl hpr
  have hθ : star (m.rotate_deg / 180 * env.pi) = m.rotate_deg / 180 * env.pi := by
    rw [star_mul', Signal.star_div_, hd, hpi, star_ofNat]
  have hc : star (env.cos (m.rotate_deg / 180 * env.pi)) = env.cos (m.rotate_deg / 180 * env.pi) := by rw [hcos, hθ]
  have hs : star (env.sin (m.rotate_deg / 180 * env.pi)) = env.sin (m.rotate_deg / 180 * env.pi) := by rw [hsin, hθ]
  have hsq := hA.sq (m.rotate_deg / 180 * env.pi)
  have unit : ∀ c : F, c * star c = 1 → q.pick c (star c) * star (q.pick c (star c)) = 1 := by
    intro c h
    cases q
    · exact h
    · show star c * star (star c) = 1
      rw [star_star, mul_comm, h]
  have ua := unit _ hS
  have ub := unit _ hP
  simp only [List.map_cons, List.map_nil, List.sum_cons, List.sum_nil, add_zero]
  change total (m.setup env) x (on r.o _) * star (total (m.setup env) x (on r.o _)) +
    total (m.setup env) x (on r.o _) * star (total (m.setup env) x (on r.o _)) = x (on p.i _) * _ + x (on p.i _) * _
  rw [s1, p1]
  generalize q.pick m.cplgS (star m.cplgS) = a at *
  generalize q.pick m.cplgP (star m.cplgP) = b at *
  generalize env.cos (m.rotate_deg / 180 * env.pi) = c at *
  generalize env.sin (m.rotate_deg / 180 * env.pi) = s at *
  generalize x (on p.i ⟨o, f, .S, q⟩) = u
  generalize x (on p.i ⟨o, f, .P, q⟩) = v
  simp only [star_add, star_sub, star_mul', hc, hs]
  generalize star a = a' at *
  generalize star b = b' at *
  generalize star u = u' at *
  generalize star v = v' at *
  linear_combination ((a * a' * c * c + b * b' * s * s + 1) * (u * u') + s * c * (b * b' - a * a') * (u * v' + v * u') +
      (b * b' * c * c + a * a' * s * s + 1) * (v * v')) * hsq +
    (c * c * (u * u') - s * c * (u * v' + v * u') + s * s * (v * v')) * ua +
    (s * s * (u * u') + s * c * (u * v' + v * u') + c * c * (v * v')) * ub

end Mount

/-! ## selectors -/

/-- **C75.**  A selector whose setup succeeds sends the light of every key to the one port whose test accepts the key, and
sends all light it gets at these ports back to the front. -/
theorem C75_select {po_Fr : Port P} {l : List (Port P × (OKey O K → Bool))} {cs : List (Coupling P (Key O K) F)}
    (h : selector_setup env po_Fr l = .ok cs) (hd : (po_Fr.o :: l.map (fun pt => pt.1.o)).Nodup) {x : P × Key O K → F}
    (hF : Within env x po_Fr.i) (hB : ∀ pt ∈ l, Within env x pt.1.i) :
    (∀ k ∈ env.okeys po_Fr.i, (l.filter (fun pt => pt.2 k)).length = 1) ∧
    (∀ pt ∈ l, ∀ k, (cs.map (fun c => c.into x (pt.1.o, .opt k))).sum = if pt.2 k then x (po_Fr.i, .opt k) else 0) ∧
    ∀ k, (cs.map (fun c => c.into x (po_Fr.o, .opt k))).sum = (l.map (fun pt => x (pt.1.i, .opt k))).sum := by
  obtain ⟨u, v, hu, hv, rfl⟩ := blocks_append h
  obtain ⟨c, ds, hc, hds, rfl⟩ := blocks_cons hv
  obtain rfl := blocks_nil hds
  injection hc with hc
  subst hc
  rw [List.nodup_cons] at hd
  have hone : ∀ k ∈ env.okeys po_Fr.i, (l.filter (fun pt => pt.2 k)).length = 1 := by
    intro k hk
    obtain ⟨c, hc⟩ := (blocks_sum hu).1 _ (List.mem_map_of_mem hk)
    split_ifs at hc with h1
    exact h1
  have hfor : ∀ (r : P) (k : OKey O K), total u x (on r k) =
      if k ∈ env.okeys po_Fr.i then ((l.filter (fun pt => pt.2 k)).map (fun pt => if pt.1.o = r then x (on po_Fr.i k) else 0)).sum
      else 0 := by
    intro r k
    have hper : ∀ j ∈ env.okeys po_Fr.i, ∀ ds,
        (if (l.filter (fun pt => pt.2 j)).length = 1 then
          Except.ok ((l.filter (fun pt => pt.2 j)).map (fun pt => Coupling.edge (on po_Fr.i j) (on pt.1.o j) (1 : F)))
        else Except.error Err.assertion) = .ok ds → total ds x (on r k) =
        if j = k then ((l.filter (fun pt => pt.2 j)).map (fun pt => if pt.1.o = r then x (on po_Fr.i j) else 0)).sum else 0 := by
      intro j hj ds hds
      rw [if_pos (hone j hj)] at hds
      injection hds with hds
      subst hds
      rw [total_map]
      by_cases hjk : j = k
      · rw [if_pos hjk]
        congr 1
        apply List.map_congr_left
        intro pt _
        rw [into_edge, one_mul, hjk]
        by_cases hr : pt.1.o = r
        · rw [if_pos hr, if_pos (by rw [hr])]
        · rw [if_neg hr, if_neg (fun h => hr (congrArg Prod.fst h))]
      · rw [if_neg hjk]
        apply List.sum_eq_zero
        intro a ha
        obtain ⟨pt, _, rfl⟩ := List.mem_map.1 ha
        rw [into_edge, if_neg]
        intro h
        injection h with _ h
        injection h with h
        exact hjk h
    rw [blocks_map hu hper, ← List.sum_toFinset _ hF.1]
    by_cases hk : k ∈ env.okeys po_Fr.i
    · rw [if_pos hk, Finset.sum_eq_single k, if_pos rfl]
      · intro j _ hj
        rw [if_neg hj]
      · intro h
        exact absurd (List.mem_toFinset.2 hk) h
    · rw [if_neg hk, Finset.sum_eq_zero]
      intro j hj
      rw [if_neg]
      rintro rfl
      exact hk (List.mem_toFinset.1 hj)
  have hback : ∀ (r : P) (k : OKey O K), total (l.flatMap (fun pt => (env.okeys pt.1.i).map
      (fun k => Coupling.edge (on pt.1.i k) (on po_Fr.o k) (1 : F)))) x (on r k) =
      if po_Fr.o = r then (l.map (fun pt => x (on pt.1.i k))).sum else 0 := by
    intro r k
    have : ∀ pt ∈ l, total ((env.okeys pt.1.i).map (fun k => Coupling.edge (on pt.1.i k) (on po_Fr.o k) (1 : F))) x (on r k) =
        if po_Fr.o = r then x (on pt.1.i k) else 0 := by
      intro pt hpt
      rw [kept_total (hB pt hpt), one_mul]
    rw [total_flatMap, List.map_congr_left this]
    split_ifs
    · rfl
    · apply List.sum_eq_zero
      intro a ha
      obtain ⟨_, _, rfl⟩ := List.mem_map.1 ha
      rfl
  refine ⟨hone, fun pt hpt k => ?_, fun k => ?_⟩
  · have hne : po_Fr.o ≠ pt.1.o := fun h => hd.1 (h ▸ List.mem_map_of_mem hpt)
    show total (u ++ (_ ++ [])) x (on pt.1.o k) = _
    rw [List.append_nil, total_append, hback, if_neg hne, add_zero, hfor]
    by_cases hk : k ∈ env.okeys po_Fr.i
    · rw [if_pos hk]
      have hsub : ∀ m : List (Port P × (OKey O K → Bool)), (m.map (fun pt => pt.1.o)).Nodup → pt ∈ m →
          ((m.filter (fun pt => pt.2 k)).map (fun pt' => if pt'.1.o = pt.1.o then x (on po_Fr.i k) else 0)).sum =
            if pt.2 k then x (po_Fr.i, .opt k) else 0 := by
        intro m hm hpt
        have h0 : ∀ m' : List (Port P × (OKey O K → Bool)), pt.1.o ∉ m'.map (fun pt => pt.1.o) →
            ((m'.filter (fun pt => pt.2 k)).map (fun pt' => if pt'.1.o = pt.1.o then x (on po_Fr.i k) else 0)).sum = 0 := by
          intro m' hm'
          apply List.sum_eq_zero
          intro a ha
          obtain ⟨pt', hpt', rfl⟩ := List.mem_map.1 ha
          rw [if_neg]
          intro h
          exact hm' (h ▸ List.mem_map_of_mem (List.mem_filter.1 hpt').1)
        induction m with
        | nil => cases hpt
        | cons a m ih =>
          rw [List.map_cons, List.nodup_cons] at hm
          rcases List.mem_cons.1 hpt with rfl | hmem
          · by_cases hacc : pt.2 k = true
            · rw [List.filter_cons, if_pos hacc, List.map_cons, List.sum_cons, if_pos rfl, h0 m hm.1, add_zero, if_pos hacc]
            · rw [List.filter_cons, if_neg hacc, h0 m hm.1, if_neg hacc]
          · have hane : a.1.o ≠ pt.1.o := fun h => hm.1 (h ▸ List.mem_map_of_mem hmem)
            by_cases hacc : a.2 k = true
            · rw [List.filter_cons, if_pos hacc, List.map_cons, List.sum_cons, if_neg hane, zero_add, ih hm.2 hmem]
            · rw [List.filter_cons, if_neg hacc, ih hm.2 hmem]
      exact hsub l hd.2 hpt
    · rw [if_neg hk, hF.2 k hk, ite_self]
  · show total (u ++ (_ ++ [])) x (on po_Fr.o k) = _
    rw [List.append_nil, total_append, hback, if_pos rfl, hfor]
    have : ((l.filter (fun pt => pt.2 k)).map (fun pt => if pt.1.o = po_Fr.o then x (on po_Fr.i k) else 0)).sum = 0 := by
      apply List.sum_eq_zero
      intro a ha
      obtain ⟨pt', hpt', rfl⟩ := List.mem_map.1 ha
      rw [if_neg]
      intro h
      exact hd.1 (h ▸ List.mem_map_of_mem (List.mem_filter.1 hpt').1)
    rw [this, ite_self, zero_add]

/-- **C75.**  Setting up a selector fails exactly when some key is accepted by no port or by several ports. -/
theorem C75_error (po_Fr : Port P) (l : List (Port P × (OKey O K → Bool))) :
    selector_setup env po_Fr l = (.error .assertion : Except Err (List (Coupling P (Key O K) F))) ↔
      ∃ k ∈ env.okeys po_Fr.i, (l.filter (fun pt => pt.2 k)).length ≠ 1 := by
  unfold selector_setup
  set v : List (Coupling P (Key O K) F) :=
    l.flatMap (fun pt => (env.okeys pt.1.i).map (fun k => .edge (on pt.1.i k) (on po_Fr.o k) 1))
  have key : ∀ ks : List (OKey O K), blocks (ks.map (fun k =>
      if (l.filter (fun pt => pt.2 k)).length = 1 then
        Except.ok ((l.filter (fun pt => pt.2 k)).map (fun pt => .edge (on po_Fr.i k) (on pt.1.o k) 1))
      else Except.error Err.assertion) ++ [.ok v]) = .error .assertion ↔ ∃ k ∈ ks, (l.filter (fun pt => pt.2 k)).length ≠ 1 := by
    intro ks
    induction ks with
    | nil =>
      constructor
      · intro h
        cases h
      · rintro ⟨k, hk, _⟩
        cases hk
    | cons a ks ih =>
      rw [List.map_cons, List.cons_append]
      by_cases ha : (l.filter (fun pt => pt.2 a)).length = 1
      · rw [if_pos ha]
        constructor
        · intro h
          cases hb : blocks (ks.map (fun k =>
              if (l.filter (fun pt => pt.2 k)).length = 1 then
                Except.ok ((l.filter (fun pt => pt.2 k)).map (fun pt => .edge (on po_Fr.i k) (on pt.1.o k) (1 : F)))
              else Except.error Err.assertion) ++ [.ok v]) with
          | ok ds =>
            rw [blocks, hb] at h
            cases h
          | error e =>
            rw [blocks, hb] at h
            injection h with h
            subst h
            obtain ⟨k, hk, hk'⟩ := ih.1 hb
            exact ⟨k, List.mem_cons_of_mem _ hk, hk'⟩
        · rintro ⟨k, hk, hk'⟩
          rcases List.mem_cons.1 hk with rfl | hk
          · exact absurd ha hk'
          · have := ih.2 ⟨k, hk, hk'⟩
            rw [blocks, this]
            rfl
      · rw [if_neg ha]
        constructor
        · intro _
          exact ⟨a, List.mem_cons_self, ha⟩
        · intro _
          rfl
  exact key _

/-- **C75**, the full statement for `PolSelector`, is proved for the forward direction only (`_partial`): light in `PolP`
goes to `Bk_P` and light in `PolS` goes to `Bk_S`.  Missing is the way back: `C75_pol_refuted`. -/
theorem C75_pol_partial {po_Fr Bk_P Bk_S : Port P} (hd : [po_Fr.o, Bk_P.o, Bk_S.o].Nodup) {x : P × Key O K → F}
    (hF : Within env x po_Fr.i) (k : OKey O K) :
    ((pol_selector_setup env po_Fr Bk_P Bk_S).map (fun c => c.into x (Bk_P.o, .opt k))).sum =
      (if k.pol = .P then x (po_Fr.i, .opt k) else 0) ∧
    ((pol_selector_setup env po_Fr Bk_P Bk_S).map (fun c => c.into x (Bk_S.o, .opt k))).sum =
      (if k.pol = .S then x (po_Fr.i, .opt k) else 0) := by
  simp only [List.nodup_cons, List.mem_cons, List.not_mem_nil, or_false, not_or, not_false_iff, List.nodup_nil, and_true] at hd
  obtain ⟨⟨h1, h2⟩, h3⟩ := hd
  have zero : ∀ (ks : List (OKey O K)) (a r : P), po_Fr.o ≠ r →
      total (ks.map (fun k => Coupling.edge (on a k) (on po_Fr.o k) (1 : F))) x (on r k) = 0 := by
    intro ks a r hr
    rw [total_map]
    apply List.sum_eq_zero
    intro v hv
    obtain ⟨j, _, rfl⟩ := List.mem_map.1 hv
    rw [into_edge, if_neg]
    exact fun h => hr (congrArg Prod.fst h)
  have fwd : ∀ (r : P) (w : Pol → Prop) [DecidablePred w], (∀ p : Pol, (match p with | .P => Bk_P.o | .S => Bk_S.o) = r ↔ w p) →
      total ((env.okeys po_Fr.i).map (fun k => match k.pol with
        | .P => Coupling.edge (on po_Fr.i k) (on Bk_P.o k) (1 : F)
        | .S => .edge (on po_Fr.i k) (on Bk_S.o k) 1)) x (on r k) = if w k.pol then x (on po_Fr.i k) else 0 := by
    intro r w _ hw
    have hper : ∀ j ∈ env.okeys po_Fr.i, (match j.pol with
        | .P => Coupling.edge (on po_Fr.i j) (on Bk_P.o j) (1 : F)
        | .S => .edge (on po_Fr.i j) (on Bk_S.o j) 1).into x (on r k) = if j = k ∧ w j.pol then x (on po_Fr.i j) else 0 := by
      intro j _
      have hj := hw j.pol
      cases hp : j.pol with
      | P =>
        rw [hp] at hj
        dsimp only at hj ⊢
        rw [into_edge, one_mul]
        by_cases h : j = k ∧ w .P
        · rw [if_pos h, if_pos (by rw [hj.2 h.2, h.1])]
        · rw [if_neg h, if_neg]
          intro h'
          injection h' with e1 e2
          injection e2 with e2
          exact h ⟨e2, hj.1 e1⟩
      | S =>
        rw [hp] at hj
        dsimp only at hj ⊢
        rw [into_edge, one_mul]
        by_cases h : j = k ∧ w .S
        · rw [if_pos h, if_pos (by rw [hj.2 h.2, h.1])]
        · rw [if_neg h, if_neg]
          intro h'
          injection h' with e1 e2
          injection e2 with e2
          exact h ⟨e2, hj.1 e1⟩
    rw [total_map, List.map_congr_left hper, ← List.sum_toFinset _ hF.1]
    by_cases hk : k ∈ env.okeys po_Fr.i
    · rw [Finset.sum_eq_single k]
      · by_cases hwk : w k.pol
        · rw [if_pos ⟨rfl, hwk⟩, if_pos hwk]
        · rw [if_neg (fun h => hwk h.2), if_neg hwk]
      · intro j _ hj
        rw [if_neg (fun h => hj h.1)]
      · intro h
        exact absurd (List.mem_toFinset.2 hk) h
    · rw [hF.2 k hk, ite_self, Finset.sum_eq_zero]
      intro j hj
      rw [if_neg]
      rintro ⟨rfl, _⟩
      exact hk (List.mem_toFinset.1 hj)
  constructor
  · show total (pol_selector_setup env po_Fr Bk_P Bk_S) x (on Bk_P.o k) = _
    unfold pol_selector_setup
    rw [total_append, total_append, zero _ _ _ h1, zero _ _ _ h1, add_zero, add_zero]
    refine fwd Bk_P.o (fun p => p = .P) (fun p => ?_)
    cases p
    · simp only [reduceCtorEq, iff_false]
      exact Ne.symm h3
    · simp
  · show total (pol_selector_setup env po_Fr Bk_P Bk_S) x (on Bk_S.o k) = _
    unfold pol_selector_setup
    rw [total_append, total_append, zero _ _ _ h2, zero _ _ _ h2, add_zero, add_zero]
    refine fwd Bk_S.o (fun p => p = .S) (fun p => ?_)
    cases p
    · simp
    · simp only [reduceCtorEq, iff_false]
      exact h3

/-- **C75**, the way back through `PolSelector`: light at `Bk_P` returns to the front, and light at `Bk_S` is lost.  Whatever
`Bk_S` receives, the front emits the same. -/
theorem C75_pol_refuted {po_Fr Bk_P Bk_S : Port P} (hd : [po_Fr.o, Bk_P.o, Bk_S.o].Nodup) (hi : Bk_P.i ≠ Bk_S.i)
    (hF : po_Fr.i ≠ Bk_S.i) {x y : P × Key O K → F} (h : ∀ n, n.1 ≠ Bk_S.i → x n = y n) (n : P × Key O K) :
    ((pol_selector_setup env po_Fr Bk_P Bk_S).map (fun c => c.into x n)).sum =
      ((pol_selector_setup env po_Fr Bk_P Bk_S).map (fun c => c.into y n)).sum := by
  congr 1
  apply List.map_congr_left
  intro c hc
  unfold pol_selector_setup at hc
  rcases List.mem_append.1 hc with hc | hc
  · rcases List.mem_append.1 hc with hc | hc
    · obtain ⟨k, _, rfl⟩ := List.mem_map.1 hc
      cases hp : k.pol with
      | P => simp only [into_edge, h _ (show (on po_Fr.i k : P × Key O K).1 ≠ Bk_S.i from hF)]
      | S => simp only [into_edge, h _ (show (on po_Fr.i k : P × Key O K).1 ≠ Bk_S.i from hF)]
    · obtain ⟨k, _, rfl⟩ := List.mem_map.1 hc
      simp only [into_edge, h _ (show (on Bk_P.i k : P × Key O K).1 ≠ Bk_S.i from hi)]
  · obtain ⟨k, _, rfl⟩ := List.mem_map.1 hc
    simp only [into_edge, h _ (show (on Bk_P.i k : P × Key O K).1 ≠ Bk_S.i from hi)]

/-- **C75**, the way back through `PolSelector` for light at `Bk_P`: it is emitted once for `Bk_P`, and once more when
`Bk_S` carries the same key. -/
theorem C75_pol_return_refuted {po_Fr Bk_P Bk_S : Port P} (hd : [po_Fr.o, Bk_P.o, Bk_S.o].Nodup) {x : P × Key O K → F}
    (hP : Within env x Bk_P.i) (hS : (env.okeys Bk_S.i).Nodup) (k : OKey O K) :
    ((pol_selector_setup env po_Fr Bk_P Bk_S).map (fun c => c.into x (po_Fr.o, .opt k))).sum =
      x (Bk_P.i, .opt k) + if k ∈ env.okeys Bk_S.i then x (Bk_P.i, .opt k) else 0 := by
  simp only [List.nodup_cons, List.mem_cons, List.not_mem_nil, or_false, not_or, not_false_iff, List.nodup_nil, and_true] at hd
  obtain ⟨⟨h1, h2⟩, h3⟩ := hd
  show total (pol_selector_setup env po_Fr Bk_P Bk_S) x (on po_Fr.o k) = _
  unfold pol_selector_setup
  rw [total_append, total_append, kept_total hP, if_pos rfl, one_mul]
  have hz : total ((env.okeys po_Fr.i).map (fun k => match k.pol with
        | .P => Coupling.edge (on po_Fr.i k) (on Bk_P.o k) (1 : F)
        | .S => .edge (on po_Fr.i k) (on Bk_S.o k) 1)) x (on po_Fr.o k) = 0 := by
    rw [total_map]
    apply List.sum_eq_zero
    intro v hv
    obtain ⟨j, _, rfl⟩ := List.mem_map.1 hv
    cases hp : j.pol with
    | P => exact (into_edge ..).trans (if_neg (fun h => h1 (congrArg Prod.fst h).symm))
    | S => exact (into_edge ..).trans (if_neg (fun h => h2 (congrArg Prod.fst h).symm))
  have hb : total ((env.okeys Bk_S.i).map (fun k => Coupling.edge (on Bk_P.i k) (on po_Fr.o k) (1 : F))) x (on po_Fr.o k) =
      if k ∈ env.okeys Bk_S.i then x (Bk_P.i, .opt k) else 0 := by
    rw [total_map, ← List.sum_toFinset _ hS]
    by_cases hk : k ∈ env.okeys Bk_S.i
    · rw [if_pos hk, Finset.sum_eq_single k]
      · rw [into_edge, if_pos rfl, one_mul]
      · intro j _ hj
        rw [into_edge, if_neg]
        intro h
        injection h with _ h
        injection h with h
        exact hj h
      · intro h
        exact absurd (List.mem_toFinset.2 hk) h
    · rw [if_neg hk, Finset.sum_eq_zero]
      intro j hj
      rw [into_edge, if_neg]
      intro h
      injection h with _ h
      injection h with h
      exact hk (h ▸ List.mem_toFinset.1 hj)
  refine (congrArg₂ (· + ·) (congrArg₂ (· + ·) hz rfl) hb).trans ?_
  rw [zero_add]

/-! ## circulators -/

/-- **C76.**  A circulator sends the light of every port to the next port, and that of the last port to the first. -/
theorem C76_next {l : List (Port P)} (hd : (l.map Port.o).Nodup) {x : P × Key O K → F} (hw : ∀ p ∈ l, Within env x p.i)
    (i : ℕ) (hi : i < l.length) (k : OKey O K) :
    ((circulator_setup env l).map (fun c => c.into x
      ((l[(i + 1) % l.length]'(Nat.mod_lt _ (by omega))).o, .opt k))).sum = x (l[i].i, .opt k) := by
  have hlen : ∀ j, (j + 1) % l.length < l.length := fun j => Nat.mod_lt _ (by omega)
  have inj : ∀ a b (ha : a < l.length) (hb : b < l.length), l[a].o = l[b].o → a = b := by
    intro a b ha hb h
    have h1 : (l.map Port.o)[a]'(by simpa using ha) = (l.map Port.o)[b]'(by simpa using hb) := by simpa using h
    exact (List.Nodup.getElem_inj_iff hd).1 h1
  have hsucc : ∀ a b, a < l.length → b < l.length → (a + 1) % l.length = (b + 1) % l.length → a = b := by
    intro a b ha hb h
    by_cases h1 : a + 1 < l.length
    · by_cases h2 : b + 1 < l.length
      · rw [Nat.mod_eq_of_lt h1, Nat.mod_eq_of_lt h2] at h
        omega
      · rw [Nat.mod_eq_of_lt h1, show b + 1 = l.length by omega, Nat.mod_self] at h
        omega
    · by_cases h2 : b + 1 < l.length
      · rw [Nat.mod_eq_of_lt h2, show a + 1 = l.length by omega, Nat.mod_self] at h
        omega
      · omega
  show total (circulator_setup env l) x (on _ k) = _
  unfold circulator_setup
  rw [total_flatMap]
  have hper : ∀ pi ∈ l.zipIdx, total (match l[(pi.2 + 1) % l.length]? with
      | none => []
      | some next => (env.okeys pi.1.i).map (fun k => Coupling.edge (on pi.1.i k) (on next.o k) (1 : F))) x
        (on (l[(i + 1) % l.length]'(hlen i)).o k) = if pi.2 = i then x (on l[i].i k) else 0 := by
    rintro ⟨p, j⟩ hpj
    obtain ⟨_, hj, hp⟩ := List.mem_zipIdx hpj
    simp only [Nat.zero_add, Nat.sub_zero] at hj hp
    have hpl : p ∈ l := hp ▸ List.getElem_mem _
    dsimp only
    rw [List.getElem?_eq_getElem (hlen j)]
    dsimp only
    rw [kept_total (hw _ hpl), one_mul]
    by_cases h : j = i
    · subst h
      rw [if_pos rfl, if_pos rfl, hp]
    · rw [if_neg h, if_neg]
      intro h'
      exact h (hsucc j i hj hi (inj _ _ (hlen j) (hlen i) h'))
  refine (congrArg List.sum (List.map_congr_left hper)).trans ?_
  have hmem : (l[i], i) ∈ l.zipIdx := by
    rw [List.mk_mem_zipIdx_iff_getElem?]
    exact List.getElem?_eq_getElem hi
  have hnd : l.zipIdx.Nodup := by
    apply List.Nodup.of_map Prod.snd
    rw [List.zipIdx_map_snd]
    exact List.nodup_range'
  classical
  rw [← List.sum_toFinset _ hnd, Finset.sum_eq_single (l[i], i), if_pos rfl]
  · rintro ⟨p, j⟩ hpj hne
    rw [if_neg]
    rintro rfl
    have := List.mem_toFinset.1 hpj
    rw [List.mk_mem_zipIdx_iff_getElem?, List.getElem?_eq_getElem hi] at this
    injection this with this
    exact hne (by rw [this])
  · intro h
    exact absurd (List.mem_toFinset.2 hmem) h

/-- **C76.**  A circulator keeps the power of every key. -/
theorem C76_power {l : List (Port P)} (hd : (l.map Port.o).Nodup) {x : P × Key O K → F} (hw : ∀ p ∈ l, Within env x p.i)
    (k : OKey O K) :
    (l.map (fun p => ((circulator_setup env l).map (fun c => c.into x (p.o, .opt k))).sum *
      star ((circulator_setup env l).map (fun c => c.into x (p.o, .opt k))).sum)).sum =
    (l.map (fun p => x (p.i, .opt k) * star (x (p.i, .opt k)))).sum := by
  rcases Nat.eq_zero_or_pos l.length with h0 | hpos
  · rw [List.length_eq_zero_iff.1 h0]
    rfl
  set f : P → F := fun r => ((circulator_setup env l).map (fun c => c.into x (r, .opt k))).sum
  have hrot : l.map (fun p => f p.o * star (f p.o)) ~r l.map (fun p => x (p.i, .opt k) * star (x (p.i, .opt k))) := by
    refine ⟨1, ?_⟩
    rw [← List.map_rotate]
    apply List.ext_getElem
    · simp
    · intro i h1 h2
      have hi : i < l.length := by simpa using h2
      rw [List.getElem_map, List.getElem_map, List.getElem_rotate]
      have := C76_next hd hw i hi k
      rw [← this]
  exact hrot.perm.sum_eq

/-- **C75** is false for the check of a selection stack: it accepts elements with any ports. -/
theorem C75_stack_refuted (ns : List ℕ) : stack_check none ns = .ok () := by
  induction ns with
  | nil => rfl
  | cons n ns ih =>
    unfold stack_check
    rw [if_pos (by simp)]
    exact ih

end Optics
