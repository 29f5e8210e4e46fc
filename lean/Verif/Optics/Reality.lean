import Mathlib.Data.List.Perm.Subperm
import Mathlib.Data.List.Nodup
import Verif.Optics.Mirror
import Verif.Optics.Demo

/-!
# The raising fields are the conjugates of the lowering fields (C64)
-/

set_option linter.unusedSectionVars false

namespace Optics
open Py Inject Circuit
open Signal (Balanced star_div_)
open scoped List

variable {P O K F : Type} [DecidableEq P] [DecidableEq O] [DecidableEq K] [AddCommGroup K] [Field F] [StarRing F]
  [DecidableEq F]
variable {env : OEnv P O K F}

/-- The key at which the conjugate of a field stands: the other one of `LOWER` and `RAISE` for light, the negative frequency
for signals. -/
def Key.conj : Key O K → Key O K
  | .opt k => .opt { k with q := k.q.conj }
  | .sig k => .sig (-k)

theorem Key.conj_conj (k : Key O K) : k.conj.conj = k := by
  cases k with
  | opt k => exact congrArg Key.opt k.conj_conj
  | sig k => exact congrArg Key.sig (neg_neg k)

theorem Key.conj_inj {k l : Key O K} (h : k.conj = l.conj) : k = l := by
  rw [← k.conj_conj, h, l.conj_conj]

/-- The conjugate field. -/
def omirror (x : P × Key O K → F) : P × Key O K → F := fun t => star (x (t.1, t.2.conj))

/-- The couplings make of the conjugate field the conjugate of what they make of the field. -/
def OEven (cs : List (Coupling P (Key O K) F)) : Prop :=
  ∀ x p k, total cs (omirror x) (p, k.conj) = star (total cs x (p, k))

theorem omirror_conj (x : P × Key O K → F) (p : P) (k : Key O K) : omirror x (p, k.conj) = star (x (p, k)) := by
  unfold omirror
  rw [Key.conj_conj]

theorem pair_conj (p q : P) (k l : Key O K) : ((p, k.conj) = (q, l.conj)) ↔ ((p, k) = (q, l)) := by
  rw [Prod.mk.injEq, Prod.mk.injEq]
  constructor
  · rintro ⟨h1, h2⟩
    exact ⟨h1, Key.conj_inj h2⟩
  · rintro ⟨h1, h2⟩
    exact ⟨h1, congrArg Key.conj h2⟩

theorem omirror_on (x : P × Key O K → F) (p : P) (k : OKey O K) : omirror x (on p k.conj) = star (x (on p k)) :=
  omirror_conj x p (.opt k)

theorem omirror_sn (x : P × Key O K → F) (p : P) (k : K) : omirror x (sn p (-k)) = star (x (sn p k)) :=
  omirror_conj x p (.sig k)

theorem on_conj (p q : P) (k : OKey O K) (l : Key O K) : (on p k.conj = (q, l.conj)) ↔ (on p k = (q, l)) :=
  pair_conj p q (.opt k) l

theorem sn_conj (p q : P) (k : K) (l : Key O K) : (sn p (-k) = (q, l.conj)) ↔ (sn p k = (q, l)) :=
  pair_conj p q (.sig k) l

theorem oeven_nil : OEven ([] : List (Coupling P (Key O K) F)) := fun x p k => by rw [total_nil, total_nil, star_zero]

theorem oeven_append {cs ds : List (Coupling P (Key O K) F)} (hc : OEven cs) (hd : OEven ds) : OEven (cs ++ ds) :=
  fun x p k => by rw [total_append, total_append, hc, hd, star_add]

theorem list_star_sum (l : List F) : star l.sum = (l.map star).sum := by
  induction l with
  | nil => simp
  | cons a l ih => rw [List.sum_cons, star_add, ih, List.map_cons, List.sum_cons]

/-- a family of couplings whose members come in conjugate pairs -/
theorem oeven_blocks {α : Type} {l : List α} {σ : α → α} (hσ : l.map σ ~ l)
    {f : α → Except Err (List (Coupling P (Key O K) F))} {cs : List (Coupling P (Key O K) F)}
    (h : blocks (l.map f) = .ok cs)
    (hf : ∀ a ∈ l, ∀ c c', f a = .ok c → f (σ a) = .ok c' → ∀ x p k,
      total c' (omirror x) (p, k.conj) = star (total c x (p, k))) : OEven cs := by
  have hok := (blocks_sum h).1
  intro x p k
  set g : (P × Key O K → F) → P × Key O K → α → F :=
    fun x t a => match f a with | .ok ds => total ds x t | .error _ => 0 with hg
  have htot : ∀ x t, total cs x t = (l.map (g x t)).sum := by
    intro x t
    apply blocks_map h
    intro a _ ds hd
    rw [hg]
    dsimp only
    rw [hd]
  rw [htot, htot, list_star_sum, List.map_map, ← (hσ.map (g (omirror x) (p, k.conj))).sum_eq, List.map_map]
  congr 1
  apply List.map_congr_left
  intro a ha
  obtain ⟨c, hc⟩ := hok _ (List.mem_map_of_mem ha)
  obtain ⟨c', hc'⟩ := hok _ (List.mem_map_of_mem (f := f) (hσ.subset (List.mem_map_of_mem ha)))
  show g (omirror x) (p, k.conj) (σ a) = star (g x (p, k) a)
  rw [hg]
  dsimp only
  rw [hc, hc']
  exact hf a ha c c' hc hc' x p k

theorem oeven_each {α : Type} {l : List α} {f : α → Except Err (List (Coupling P (Key O K) F))}
    {cs : List (Coupling P (Key O K) F)} (h : blocks (l.map f) = .ok cs) (hf : ∀ a ∈ l, ∀ c, f a = .ok c → OEven c) :
    OEven cs := by
  refine oeven_blocks (σ := id) (by rw [List.map_id]) h ?_
  intro a ha c c' hc hc'
  obtain rfl : c = c' := by
    have := hc.symm.trans hc'
    injection this
  exact hf a ha c hc

theorem oeven_flatMap {α : Type} {l : List α} {σ : α → α} (hσ : l.map σ ~ l) {f : α → List (Coupling P (Key O K) F)}
    (hf : ∀ a ∈ l, ∀ x p k, total (f (σ a)) (omirror x) (p, k.conj) = star (total (f a) x (p, k))) :
    OEven (l.flatMap f) := by
  intro x p k
  rw [total_flatMap, total_flatMap, list_star_sum, List.map_map,
    ← (hσ.map (fun a => total (f a) (omirror x) (p, k.conj))).sum_eq, List.map_map]
  congr 1
  apply List.map_congr_left
  intro a ha
  exact hf a ha x p k

theorem oeven_map {α : Type} {l : List α} {σ : α → α} (hσ : l.map σ ~ l) {f : α → Coupling P (Key O K) F}
    (hf : ∀ a ∈ l, ∀ x p (k : Key O K), (f (σ a)).into (omirror x) (p, k.conj) = star ((f a).into x (p, k))) :
    OEven (l.map f) := by
  intro x p k
  rw [total_map, total_map, list_star_sum, List.map_map,
    ← (hσ.map (fun a => (f a).into (omirror x) (p, k.conj))).sum_eq, List.map_map]
  congr 1
  apply List.map_congr_left
  intro a ha
  exact hf a ha x p k

theorem oeven_flatMap_each {α : Type} {l : List α} {f : α → List (Coupling P (Key O K) F)} (hf : ∀ a ∈ l, OEven (f a)) :
    OEven (l.flatMap f) :=
  oeven_flatMap (σ := id) (by rw [List.map_id]) hf

/-! ## single couplings -/

theorem edge_conj (x : P × Key O K → F) (p q t : P) (a b k : Key O K) (v : F) :
    (Coupling.edge (p, a.conj) (q, b.conj) (star v)).into (omirror x) (t, k.conj) =
      star ((Coupling.edge (p, a) (q, b) v).into x (t, k)) := by
  rw [into_edge, into_edge]
  by_cases h : (q, b) = (t, k)
  · rw [if_pos h, if_pos ((pair_conj _ _ _ _).2 h), omirror_conj, star_mul']
  · rw [if_neg h, if_neg (fun h' => h ((pair_conj _ _ _ _).1 h')), star_zero]

theorem source_conj (x : P × Key O K → F) (q t : P) (b k : Key O K) (v : F) :
    (Coupling.source (q, b.conj) (star v)).into (omirror x) (t, k.conj) =
      star ((Coupling.source (q, b) v).into x (t, k)) := by
  rw [into_source, into_source]
  by_cases h : (q, b) = (t, k)
  · rw [if_pos h, if_pos ((pair_conj _ _ _ _).2 h)]
  · rw [if_neg h, if_neg (fun h' => h ((pair_conj _ _ _ _).1 h')), star_zero]

/-! ## the surroundings -/

/-- The lists of keys contain with every key its conjugate, and the constants and functions are the usual ones. -/
structure OEnv.Real (env : OEnv P O K F) : Prop where
  okeys : ∀ p, (env.okeys p).Nodup ∧ ∀ k ∈ env.okeys p, ({ k with q := k.q.conj } : OKey O K) ∈ env.okeys p
  skeys : ∀ p, Balanced (env.skeys p)
  iwavelen : ∀ o, star (env.iwavelen_m o) = env.iwavelen_m o
  freq : ∀ k, star (env.freq k) = env.freq k
  i : star env.i = -env.i
  i2pi : star env.i2pi = -env.i2pi
  pi : star env.pi = env.pi
  c_m_s : star env.c_m_s = env.c_m_s
  exp : ∀ z, star (env.exp z) = env.exp (star z)
  cos : ∀ z, star (env.cos z) = env.cos (star z)
  sin : ∀ z, star (env.sin z) = env.sin (star z)

theorem OEnv.Real.operm (he : env.Real) (p : P) : (env.okeys p).map OKey.conj ~ env.okeys p := by
  have hn : ((env.okeys p).map OKey.conj).Nodup := (he.okeys p).1.map (fun _ _ h => OKey.conj_inj h)
  refine (List.perm_ext_iff_of_nodup hn (he.okeys p).1).2 (fun k => ?_)
  rw [List.mem_map]
  constructor
  · rintro ⟨a, ha, rfl⟩
    exact (he.okeys p).2 a ha
  · intro hk
    exact ⟨k.conj, (he.okeys p).2 k hk, k.conj_conj⟩

/-- edges from every key of a port, with conjugate values at conjugate keys -/
theorem edges_even (he : env.Real) (p q r : P) {v : OKey O K → F} (hv : ∀ k, v k.conj = star (v k)) :
    OEven ((env.okeys r).map (fun k => Coupling.edge (on p k) (on q k) (v k))) := by
  apply oeven_map (he.operm r)
  intro a _ x t k
  rw [hv]
  exact edge_conj x p q t (.opt a) (.opt a) k (v a)

/-! ## modulation -/

/-- The three couplings for the raising fields are the conjugates of those for the lowering fields. -/
def Mod.Real (m : Mod P F) : Prop :=
  m.StdcplgC = star m.Stdcplg ∧ m.CLcplgC = star m.CLcplg ∧ m.BAcplgC = star m.BAcplg

theorem pick_conj (q : Quantum) (a : F) : q.conj.pick a (star a) = star (q.pick a (star a)) := by
  cases q
  · rfl
  · exact (star_star a).symm

theorem shift_conj (q : Quantum) (lk : K) : shift q.conj (-lk) = shift q lk := by
  cases q
  · exact neg_neg lk
  · rfl

theorem at_conj (k : OKey O K) (f : K) : k.conj.at f = (k.at f).conj := rfl

theorem neg_self_iff (lk : K) : (- -lk = -lk) ↔ (-lk = lk) := by rw [neg_inj]

theorem cl_conj (m : Mod P F) (hm : m.Real) (k : OKey O K) (pto inp : P) (x : P × Key O K → F) (p : P) (t : Key O K)
    (lk : K) : m.clTerm env k.conj pto inp (omirror x) (p, t.conj) (-lk) = star (m.clTerm env k pto inp x (p, t) lk) := by
  unfold Mod.clTerm
  have h1 : k.conj.cls + shift k.conj.q (-lk) = k.cls + shift k.q lk := by
    show k.cls + shift k.q.conj (-lk) = _
    rw [shift_conj]
  rw [h1, at_conj, omirror_on, omirror_sn]
  simp only [on_conj]
  have h2 : k.conj.q.pick (m.Stdcplg * m.CLcplg) (m.StdcplgC * m.CLcplgC) =
      star (k.q.pick (m.Stdcplg * m.CLcplg) (m.StdcplgC * m.CLcplgC)) := by
    rw [hm.1, hm.2.1, ← star_mul']
    exact pick_conj k.q _
  rw [h2]
  split_ifs
  · rw [star_mul', star_mul']
  · rw [star_zero]

theorem ba_conj (m : Mod P F) (hm : m.Real) (k : OKey O K) (out : P) (x : P × Key O K → F) (p : P) (t : Key O K)
    (lk : K) : m.baTerm env k.conj out (omirror x) (p, t.conj) (-lk) = star (m.baTerm env k out x (p, t) lk) := by
  unfold Mod.baTerm
  have h1 : k.conj.cls + shift k.conj.q (-lk) = k.cls + shift k.q lk := by
    show k.cls + shift k.q.conj (-lk) = _
    rw [shift_conj]
  rw [h1, at_conj, omirror_on, omirror_on]
  simp only [sn_conj]
  have h2 : k.conj.q.pick (m.Stdcplg * m.BAcplg) (m.StdcplgC * m.BAcplgC) =
      star (k.q.pick (m.Stdcplg * m.BAcplg) (m.StdcplgC * m.BAcplgC)) := by
    rw [hm.1, hm.2.2, ← star_mul']
    exact pick_conj k.q _
  have h3 : (if - -lk = -lk then (2 : F) else 1) = if -lk = lk then 2 else 1 := by
    by_cases h : -lk = lk
    · rw [if_pos h, if_pos ((neg_self_iff lk).2 h)]
    · rw [if_neg h, if_neg (fun h' => h ((neg_self_iff lk).1 h'))]
  have h4 : star (if -lk = lk then (2 : F) else 1) = if -lk = lk then 2 else 1 := by
    split_ifs
    · exact star_ofNat 2
    · exact star_one _
  rw [h2, h3]
  split_ifs with hc hd
  · rw [star_mul', star_mul', star_div_, star_ofNat]
  · rw [star_mul', star_mul', star_div_, star_one]
  · rw [star_zero]

theorem neg_sum {ks : List K} (hb : Balanced ks) (f : K → F) : (ks.map f).sum = (ks.map (fun k => f (-k))).sum := by
  rw [← (hb.perm.map f).sum_eq, List.map_map]
  rfl

/-- the modulation of conjugate keys -/
theorem fill_conj (m : Mod P F) (hm : m.Real) (hi : ∀ p, m.in_port_classical = some p → Balanced (env.skeys p))
    (ho : ∀ p, m.out_port_classical = some p → Balanced (env.skeys p)) (k : OKey O K)
    {cs cs' : List (Coupling P (Key O K) F)} (h : m.fill env k = .ok cs) (h' : m.fill env k.conj = .ok cs')
    (x : P × Key O K → F) (p : P) (t : Key O K) : total cs' (omirror x) (p, t.conj) = star (total cs x (p, t)) := by
  obtain ⟨a, c, ha, hc, htot⟩ := fill_total env m k h
  obtain ⟨a', c', ha', hc', htot'⟩ := fill_total env m k.conj h'
  rw [htot, htot', star_add, star_add]
  congr 1
  · congr 1
    · cases hp : m.ptoOpt with
      | none =>
        unfold Mod.cl at ha ha'
        rw [hp] at ha ha'
        injection ha with ha
        injection ha' with ha'
        rw [← ha, ← ha', total_nil, total_nil, star_zero]
      | some pto =>
        cases hin : m.in_port_classical with
        | none =>
          unfold Mod.cl at ha ha'
          rw [hp, hin] at ha ha'
          injection ha with ha
          injection ha' with ha'
          rw [← ha, ← ha', total_nil, total_nil, star_zero]
        | some inp =>
          rw [cl_total env m k hp hin (hi inp hin) ha, cl_total env m k.conj hp hin (hi inp hin) ha', list_star_sum,
            List.map_map, neg_sum (hi inp hin)]
          congr 1
          apply List.map_congr_left
          intro lk _
          show (if - -lk = -lk then 0 else m.clTerm env k.conj pto.o inp (omirror x) (p, t.conj) (-lk)) =
            star (if -lk = lk then 0 else m.clTerm env k pto.o inp x (p, t) lk)
          by_cases hl : -lk = lk
          · rw [if_pos hl, if_pos ((neg_self_iff lk).2 hl), star_zero]
          · rw [if_neg hl, if_neg (fun h' => hl ((neg_self_iff lk).1 h')), cl_conj m hm]
    · unfold Mod.through
      cases m.ptoOpt with
      | none =>
        show total [] _ _ = star (total [] _ _)
        rw [total_nil, total_nil, star_zero]
      | some pto =>
        dsimp only
        split_ifs
        · rw [hm.1]
          have hq : k.conj.q = k.q.conj := rfl
          rw [hq]
          cases k.q with
          | lower =>
            show total [_] _ _ = star (total [_] _ _)
            rw [total_single, total_single]
            exact edge_conj x _ _ p (.opt k) (.opt k) t _
          | raise =>
            show total [Coupling.edge (on m.pfrom.i k.conj) (on pto.o k.conj) m.Stdcplg] _ _ = star (total [_] _ _)
            rw [total_single, total_single]
            have := edge_conj x m.pfrom.i pto.o p (.opt k) (.opt k) t (star m.Stdcplg)
            rw [star_star] at this
            exact this
        · rw [total_nil, total_nil, star_zero]
  · cases hout : m.out_port_classical with
    | none =>
      unfold Mod.ba at hc hc'
      rw [hout] at hc hc'
      injection hc with hc
      injection hc' with hc'
      rw [← hc, ← hc', total_nil, total_nil, star_zero]
    | some out =>
      rw [ba_total env m k hout (ho out hout) hc, ba_total env m k.conj hout (ho out hout) hc', list_star_sum,
        List.map_map, neg_sum (ho out hout)]
      congr 1
      apply List.map_congr_left
      intro lk _
      exact ba_conj m hm k out x p t lk

/-- modulation of all keys of a port -/
theorem fills_even (he : env.Real) (r : P) (m : Mod P F) (hm : m.Real) {cs : List (Coupling P (Key O K) F)}
    (h : blocks ((env.okeys r).map (fun k => m.fill env k)) = .ok cs) : OEven cs :=
  oeven_blocks (he.operm r) h (fun k _ _ _ hc hc' x p t =>
    fill_conj m hm (fun p _ => he.skeys p) (fun p _ => he.skeys p) k hc hc' x p t)

/-- conjugate blocks of blocks -/
theorem blocks_conj {bs bs' : List (Except Err (List (Coupling P (Key O K) F)))}
    (hb : List.Forall₂ (fun b b' => ∀ c c', b = .ok c → b' = .ok c' → ∀ x p (k : Key O K),
      total c' (omirror x) (p, k.conj) = star (total c x (p, k))) bs bs') {cs cs' : List (Coupling P (Key O K) F)}
    (h : blocks bs = .ok cs) (h' : blocks bs' = .ok cs') (x : P × Key O K → F) (p : P) (k : Key O K) :
    total cs' (omirror x) (p, k.conj) = star (total cs x (p, k)) := by
  induction hb generalizing cs cs' with
  | nil =>
    obtain rfl := blocks_nil h
    obtain rfl := blocks_nil h'
    rw [total_nil, total_nil, star_zero]
  | cons hd _ ih =>
    obtain ⟨c, ds, hc, hds, rfl⟩ := blocks_cons h
    obtain ⟨c', ds', hc', hds', rfl⟩ := blocks_cons h'
    rw [total_append, total_append, star_add, hd c c' hc hc', ih hds hds']

/-! ## mirrors -/

/-- The data of a mirror is real, and so are the square roots it takes (the powers are not negative). -/
structure Mirror.Real (env : OEnv P O K F) (m : Mirror P F) : Prop where
  phase : star m.phase_rad = m.phase_rad
  AOI : star m.AOI_deg = m.AOI_deg
  roots : ∀ v ∈ [m.T_hr - m.L_t, m.L_hr + m.L_t, 1 - m.T_hr - m.L_hr - m.R_backscatter, m.R_backscatter, 2],
    star (env.sqrt v) = env.sqrt v

namespace Mirror
variable {m : Mirror P F}

theorem Real.t (h : m.Real env) : star (m.t env) = m.t env := h.roots _ (by simp [T])
theorem Real.l (h : m.Real env) : star (m.l env) = m.l env := h.roots _ (by simp [L])
theorem Real.r (h : m.Real env) : star (m.r env) = m.r env := by
  unfold Mirror.r
  split_ifs
  · rw [star_neg, h.roots m.R (by simp [R])]
  · exact h.roots m.R (by simp [R])
theorem Real.rBS (h : m.Real env) : star (m.rBS env) = m.rBS env := by
  unfold Mirror.rBS
  split_ifs
  · rw [star_neg, h.roots m.R_backscatter (by simp)]
  · exact h.roots m.R_backscatter (by simp)

theorem get_mem_vals {α β : Type} [DecidableEq α] {a b c d j : α} {u v w z y : β}
    (h : Dict.get (Dict.ofList [(a, u), (b, v), (c, w), (d, z)]) j = .ok y) : y = u ∨ y = v ∨ y = w ∨ y = z := by
  unfold Dict.get at h
  rw [get4] at h
  split_ifs at h <;> first | (injection h with h; subst h; simp) | cases h

theorem coupling_real (he : env.Real) (h : m.Real env) : star (m.coupling env) = m.coupling env := by
  unfold coupling
  split_ifs
  · rw [star_div_, star_one, h.roots 2 (by simp)]
  · rw [he.cos, star_div_, star_mul', h.AOI, he.pi, star_ofNat]
  · exact star_one _

theorem reflection_real (he : env.Real) (h : m.Real env) (port pto : Port P) {g s : F} (hg : star g = g) (hs : star s = s)
    (test : F) (k : OKey O K) : (m.reflection env port pto g test s k).Real := by
  have hc := coupling_real he h
  refine ⟨?_, ?_, ?_⟩
  · show (if test ≠ 0 then g * env.exp (-env.i * m.phase_rad) else g) =
      star (if test ≠ 0 then g * env.exp (env.i * m.phase_rad) else g)
    split_ifs
    · rw [star_mul', hg, he.exp, star_mul', he.i, h.phase]
    · exact hg.symm
  · show s * -env.i * (-2 * m.coupling env * env.pi * 2 * env.iwavelen_m k.opt) =
      star (s * env.i * (-2 * m.coupling env * env.pi * 2 * env.iwavelen_m k.opt))
    simp only [star_mul', star_neg, hs, he.i, hc, he.pi, he.iwavelen, star_ofNat]
  · show s * (-2 * m.coupling env) / env.c_m_s = star (s * (-2 * m.coupling env) / env.c_m_s)
    simp only [star_div_, star_mul', star_neg, hs, hc, he.c_m_s, star_ofNat]

theorem reflection_conj (port pto : Port P) (g test s : F) (k : OKey O K) :
    m.reflection env port pto g test s k.conj = m.reflection env port pto g test s k := rfl

theorem refl_pair (he : env.Real) (h : m.Real env) (port pto : Port P) {g s : F} (hg : star g = g) (hs : star s = s)
    (test : F) (k : OKey O K) {c c' : List (Coupling P (Key O K) F)}
    (hc : (m.reflection env port pto g test s k).fill env k = .ok c)
    (hc' : (m.reflection env port pto g test s k.conj).fill env k.conj = .ok c') (x : P × Key O K → F) (p : P)
    (t : Key O K) : total c' (omirror x) (p, t.conj) = star (total c x (p, t)) := by
  rw [reflection_conj] at hc'
  exact fill_conj _ (reflection_real he h port pto hg hs test k) (fun p _ => he.skeys p) (fun p _ => he.skeys p) k hc hc' x p t

theorem setup_even (he : env.Real) (h : m.Real env) {cs : List (Coupling P (Key O K) F)} (hc : m.setup env = .ok cs) :
    OEven cs := by
  have single : ∀ (a b : P) (v : F) (k : OKey O K), star v = v → ∀ x p (t : Key O K),
      total [Coupling.edge (on a k.conj) (on b k.conj) v] (omirror x) (p, t.conj) =
        star (total [Coupling.edge (on a k) (on b k) v] x (p, t)) := by
    intro a b v k hv x p t
    rw [total_single, total_single]
    have := edge_conj x a b p (.opt k) (.opt k) t v
    rw [hv] at this
    exact this
  have nil : ∀ (x : P × Key O K → F) p (t : Key O K),
      total ([] : List (Coupling P (Key O K) F)) (omirror x) (p, t.conj) = star (total [] x (p, t)) := by
    intro x p t
    rw [total_nil, total_nil, star_zero]
  have hat : ∀ p c, m.at_port env p = .ok c → OEven c := by
    intro port c hc
    unfold at_port at hc
    cases hs : Dict.get m.mod_sign_map port with
    | error e => rw [hs] at hc; cases hc
    | ok s =>
      rw [hs] at hc
      have hss : star s = s := by
        rcases get_mem_vals hs with rfl | rfl | rfl | rfl <;> simp
      refine oeven_blocks (he.operm port.i) hc ?_
      intro k _ d d' hd hd'
      refine blocks_conj ?_ hd hd'
      refine List.Forall₂.cons ?_ (List.Forall₂.cons ?_ (List.Forall₂.cons ?_ (List.Forall₂.cons ?_ List.Forall₂.nil)))
      · intro c c' hc hc'
        unfold transmit at hc hc'
        by_cases hT : m.T = 0
        · rw [if_neg (not_not.2 hT)] at hc hc'
          injection hc with hc
          injection hc' with hc'
          rw [← hc, ← hc']
          exact nil
        · rw [if_pos hT] at hc hc'
          cases hg : Dict.get (m.tmap env) port with
          | error e => rw [hg] at hc; cases hc
          | ok v =>
            rw [hg] at hc hc'
            cases hc
            cases hc'
            apply single
            rcases get_mem_vals hg with rfl | rfl | rfl | rfl <;> exact h.t
      · intro c c' hc hc'
        injection hc with hc
        injection hc' with hc'
        rw [← hc, ← hc']
        unfold lose
        split_ifs
        · cases hg : Dict.get? (m.lmap env) port with
          | none => exact nil
          | some v =>
            apply single
            rcases get_mem_vals (get_ok hg) with rfl | rfl | rfl | rfl <;> exact h.l
        · exact nil
      · intro c c' hc hc'
        unfold reflect at hc hc'
        cases hg : Dict.get (m.rmap env) port with
        | error e => rw [hg] at hc; cases hc
        | ok v =>
          rw [hg] at hc hc'
          have hv : star v.2 = v.2 := by
            rcases get_mem_vals hg with rfl | rfl | rfl | rfl <;>
            · dsimp only
              first | exact h.r | rw [star_neg, h.r]
          replace hc : (if m.R ≠ 0 then (m.reflection env port v.1 v.2 m.phase_rad s k).fill env k else .ok []) = .ok c := hc
          replace hc' : (if m.R ≠ 0 then (m.reflection env port v.1 v.2 m.phase_rad s k.conj).fill env k.conj else .ok [])
            = .ok c' := hc'
          split_ifs at hc hc'
          · exact refl_pair he h port v.1 hv hss _ k hc hc'
          · injection hc with hc
            injection hc' with hc'
            rw [← hc, ← hc']
            exact nil
      · intro c c' hc hc'
        unfold backscatter at hc hc'
        by_cases hB : m.R_backscatter = 0
        · rw [if_neg (not_not.2 hB)] at hc hc'
          injection hc with hc
          injection hc' with hc'
          rw [← hc, ← hc']
          exact nil
        · rw [if_pos hB] at hc hc'
          cases hg : Dict.get (m.rBSmap env) port with
          | error e => rw [hg] at hc; cases hc
          | ok v =>
            rw [hg] at hc hc'
            have hv : star v.2 = v.2 := by
              rcases get_mem_vals hg with rfl | rfl | rfl | rfl <;>
              · dsimp only
                first | exact h.rBS | rw [star_neg, h.rBS]
            exact refl_pair he h port v.1 hv hss _ k hc hc'
  have hloss : ∀ c, m.loss_couplings env = .ok c → OEven c := by
    intro c hc
    unfold loss_couplings at hc
    split_ifs at hc
    · refine oeven_each hc ?_
      intro p _ d hd
      cases hg : Dict.get? (m.lmap env) p with
      | none => rw [hg] at hd; cases hd
      | some v =>
        rw [hg] at hd
        injection hd with hd
        rw [← hd]
        refine edges_even he p.i v.1.o p.i (fun k => ?_)
        rcases get_mem_vals (get_ok hg) with rfl | rfl | rfl | rfl <;> exact h.l.symm
    · injection hc with hc
      rw [← hc]
      exact oeven_nil
  unfold setup at hc
  have : m.ports_optical.map (m.at_port env) ++ [m.loss_couplings env] =
      (m.ports_optical.map (m.at_port env) ++ [m.loss_couplings env]).map id := (List.map_id _).symm
  rw [this] at hc
  refine oeven_each hc ?_
  intro b hb c hbc
  rw [List.mem_append, List.mem_map, List.mem_singleton] at hb
  rcases hb with ⟨p, _, rfl⟩ | rfl
  · exact hat p c hbc
  · exact hloss c hbc

end Mirror

/-! ## the other elements -/

/-- The data of an element is real. -/
def OElem.Real (env : OEnv P O K F) : OElem P O K F → Prop
  | .space e => star e.L_m = e.L_m ∧ star e.L_detune_m = e.L_detune_m
  | .laser e => star (env.sqrt e.power_W) = env.sqrt e.power_W ∧ star e.phase_rad = e.phase_rad
  | .mirror m => m.Real env
  | .rotator e => star e.rotate_deg = e.rotate_deg
  | .faraday e => star e.rotate_deg = e.rotate_deg
  | .wavePlate e => (∀ v, e.cplgPC? = some v → v = star e.cplgP) ∧ (∀ v, e.cplgSC? = some v → v = star e.cplgS)
  | .selector _ l => ∀ pt ∈ l, ∀ k : OKey O K, pt.2 { k with q := k.q.conj } = pt.2 k
  | _ => True

theorem space_even (he : env.Real) (e : Space P F) (h1 : star e.L_m = e.L_m) (h2 : star e.L_detune_m = e.L_detune_m) :
    OEven (e.setup env) := by
  apply oeven_flatMap_each
  intro pq _
  apply edges_even he
  intro k
  have h3 : ∀ w f : F, star w = w → star f = f → e.phase_raise env w f = star (e.phase_lower env w f) := by
    intro w f hw hf
    unfold Space.phase_raise Space.phase_lower
    rw [he.exp]
    simp only [star_mul', star_neg, star_add, star_div_, he.i2pi, he.c_m_s, h1, h2, hw, hf, neg_neg]
  unfold Space.cplg
  have hq : k.conj.q = k.q.conj := rfl
  rw [hq]
  cases k.q with
  | lower => exact h3 _ _ (he.iwavelen _) (he.freq _)
  | raise =>
    show e.phase_lower env _ _ = star (e.phase_raise env _ _)
    rw [h3 _ _ (he.iwavelen _) (he.freq _), star_star]
    rfl

theorem laser_even (he : env.Real) (e : Laser P O K F) (h1 : star (env.sqrt e.power_W) = env.sqrt e.power_W)
    (h2 : star e.phase_rad = e.phase_rad) : OEven (e.setup env) := by
  intro x p k
  unfold Laser.setup
  rw [total_cons, total_single, total_cons, total_single, star_add]
  have hv : env.sqrt e.power_W * env.exp (-env.i * e.phase_rad) = star (env.sqrt e.power_W * env.exp (env.i * e.phase_rad)) := by
    rw [star_mul', h1, he.exp, star_mul', he.i, h2]
  rw [hv]
  have a1 := source_conj x e.po_Fr.o p (.opt (e.key .lower)) k (env.sqrt e.power_W * env.exp (env.i * e.phase_rad))
  have a2 := source_conj x e.po_Fr.o p (.opt (e.key .raise)) k (star (env.sqrt e.power_W * env.exp (env.i * e.phase_rad)))
  rw [star_star] at a2
  rw [← a1, ← a2, add_comm]
  rfl

theorem rotate_even (he : env.Real) (a b r : P) {c s : F} (hc : star c = c) (hs : star s = s) :
    OEven ((env.okeys r).flatMap (fun k => rotate_key a b k c s)) := by
  apply oeven_flatMap (he.operm r)
  intro k _ x p t
  have e1 : ∀ (l : OKey O K) (v : F), star v = v →
      (Coupling.edge (on a k.conj) (on b l.conj) v).into (omirror x) (p, t.conj) =
        star ((Coupling.edge (on a k) (on b l) v).into x (p, t)) := by
    intro l v hv
    have := edge_conj x a b p (.opt k) (.opt l) t v
    rw [hv] at this
    exact this
  have hn : star (-s) = -s := by rw [star_neg, hs]
  unfold rotate_key
  have hq : k.conj.pol = k.pol := rfl
  rw [hq]
  cases k.pol with
  | S =>
    dsimp only
    rw [total_cons, total_single, total_cons, total_single, star_add, ← e1 k c hc, ← e1 { k with pol := .P } s hs]
    rfl
  | P =>
    dsimp only
    rw [total_cons, total_single, total_cons, total_single, star_add, ← e1 k c hc, ← e1 { k with pol := .S } (-s) hn]
    rfl

theorem quarter_even (he : env.Real) (a b r : P) {s : F} (hs : star s = s) :
    OEven ((env.okeys r).flatMap (fun k => quarter_key a b k s)) := by
  apply oeven_flatMap (he.operm r)
  intro k _ x p t
  have e1 : ∀ (l : OKey O K) (v : F), star v = v →
      (Coupling.edge (on a k.conj) (on b l.conj) v).into (omirror x) (p, t.conj) =
        star ((Coupling.edge (on a k) (on b l) v).into x (p, t)) := by
    intro l v hv
    have := edge_conj x a b p (.opt k) (.opt l) t v
    rw [hv] at this
    exact this
  have hn : star (-s) = -s := by rw [star_neg, hs]
  unfold quarter_key
  have hq : k.conj.pol = k.pol := rfl
  rw [hq]
  cases k.pol with
  | S =>
    dsimp only
    rw [total_single, total_single, ← e1 { k with pol := .P } s hs]
    rfl
  | P =>
    dsimp only
    rw [total_single, total_single, ← e1 { k with pol := .S } (-s) hn]
    rfl

theorem rotator_even (he : env.Real) (e : Rotator P F) {back : F} (hb : star back = back)
    (hd : star e.rotate_deg = e.rotate_deg) : OEven (e.run env back) := by
  have one : ∀ c : Prop, [Decidable c] → star (if c then (1 : F) else -1) = if c then 1 else -1 := by
    intro c _
    split_ifs <;> simp
  unfold Rotator.run
  dsimp only
  split_ifs
  · apply oeven_flatMap_each
    intro pq _
    exact edges_even he _ _ _ (fun _ => (star_one _).symm)
  · apply oeven_flatMap_each
    intro pq _
    exact edges_even he _ _ _ (fun _ => by rw [star_neg, star_one])
  · exact oeven_append (quarter_even he _ _ _ (star_one _)) (quarter_even he _ _ _ (by rw [star_mul', hb, star_one]))
  · exact oeven_append (quarter_even he _ _ _ (by rw [star_neg, star_one]))
      (quarter_even he _ _ _ (by rw [star_mul', hb, star_neg, star_one]))
  · have h1 : star (e.rotate_deg / 180 * env.pi) = e.rotate_deg / 180 * env.pi := by
      rw [star_mul', star_div_, hd, he.pi, star_ofNat]
    have hc : star (env.cos (e.rotate_deg / 180 * env.pi)) = env.cos (e.rotate_deg / 180 * env.pi) := by rw [he.cos, h1]
    have hs : star (env.sin (e.rotate_deg / 180 * env.pi)) = env.sin (e.rotate_deg / 180 * env.pi) := by rw [he.sin, h1]
    exact oeven_append (rotate_even he _ _ _ hc hs) (rotate_even he _ _ _ hc (by rw [star_mul', hb, hs]))

theorem wave_plate_even (he : env.Real) (e : WavePlate P F) (h1 : ∀ v, e.cplgPC? = some v → v = star e.cplgP)
    (h2 : ∀ v, e.cplgSC? = some v → v = star e.cplgS) : OEven (e.setup env) := by
  have hP : e.cplgPC = star e.cplgP := by
    unfold WavePlate.cplgPC
    cases h : e.cplgPC? with
    | none => rfl
    | some v => exact h1 v h
  have hS : e.cplgSC = star e.cplgS := by
    unfold WavePlate.cplgSC
    cases h : e.cplgSC? with
    | none => rfl
    | some v => exact h2 v h
  apply oeven_flatMap_each
  intro pq _
  apply edges_even he
  rintro ⟨o, c, p, q⟩
  cases p <;> cases q <;> simp [WavePlate.cplg, OKey.conj, Quantum.conj, hP, hS]

theorem selector_even (he : env.Real) (po_Fr : Port P) {l : List (Port P × (OKey O K → Bool))}
    (hl : ∀ pt ∈ l, ∀ k : OKey O K, pt.2 { k with q := k.q.conj } = pt.2 k) {cs : List (Coupling P (Key O K) F)}
    (h : selector_setup env po_Fr l = .ok cs) : OEven cs := by
  obtain ⟨u, v, hu, hv, rfl⟩ := blocks_append h
  apply oeven_append
  · refine oeven_blocks (he.operm po_Fr.i) hu ?_
    intro k _ c c' hc hc'
    have hfil : l.filter (fun pt => pt.2 k.conj) = l.filter (fun pt => pt.2 k) := by
      apply List.filter_congr
      intro pt hpt
      exact hl pt hpt k
    rw [hfil] at hc'
    split_ifs at hc hc'
    injection hc with hc
    injection hc' with hc'
    rw [← hc, ← hc']
    intro x p t
    rw [total_map, total_map, list_star_sum, List.map_map]
    congr 1
    apply List.map_congr_left
    intro pt _
    have := edge_conj x po_Fr.i pt.1.o p (.opt k) (.opt k) t 1
    rw [star_one] at this
    exact this
  · obtain ⟨c, ds, hc, hd, rfl⟩ := blocks_cons hv
    obtain rfl := blocks_nil hd
    injection hc with hc
    rw [← hc, List.append_nil]
    apply oeven_flatMap_each
    intro pt _
    exact edges_even he _ _ _ (fun _ => (star_one _).symm)

theorem pol_selector_even (he : env.Real) (po_Fr Bk_P Bk_S : Port P) :
    OEven (pol_selector_setup env po_Fr Bk_P Bk_S : List (Coupling P (Key O K) F)) := by
  unfold pol_selector_setup
  refine oeven_append (oeven_append ?_ (edges_even he _ _ _ (fun _ => (star_one _).symm)))
    (edges_even he _ _ _ (fun _ => (star_one _).symm))
  apply oeven_map (he.operm _)
  intro k _ x p t
  have hq : k.conj.pol = k.pol := rfl
  rw [hq]
  cases k.pol with
  | P =>
    have := edge_conj x po_Fr.i Bk_P.o p (.opt k) (.opt k) t 1
    rw [star_one] at this
    exact this
  | S =>
    have := edge_conj x po_Fr.i Bk_S.o p (.opt k) (.opt k) t 1
    rw [star_one] at this
    exact this

theorem modulator_real_PM (he : env.Real) (a b : Port P) (D B : Option P) : (⟨a, some b, D, B, 1, 1, env.i / 2,
    -env.i / 2, 1 / env.c_m_s, 1 / env.c_m_s, true⟩ : Mod P F).Real := by
  refine ⟨?_, ?_, ?_⟩
  · exact (star_one _).symm
  · show -env.i / 2 = star (env.i / 2)
    rw [star_div_, he.i, star_ofNat]
  · show 1 / env.c_m_s = star (1 / env.c_m_s)
    rw [star_div_, star_one, he.c_m_s]

theorem modulator_real_AM (he : env.Real) (a b : Port P) (D B : Option P) (t : Bool) : (⟨a, some b, D, B, 1, 1, 1 / 2, 1 / 2,
    env.i / env.c_m_s, -env.i / env.c_m_s, t⟩ : Mod P F).Real := by
  refine ⟨?_, ?_, ?_⟩
  · exact (star_one _).symm
  · show (1 / 2 : F) = star (1 / 2)
    rw [star_div_, star_one, star_ofNat]
  · show -env.i / env.c_m_s = star (env.i / env.c_m_s)
    rw [star_div_, he.i, he.c_m_s]

/-- **C64, every element.**  What an optical element with real data makes of the conjugate field is the conjugate of what it
makes of the field, for all iteration orders of the keys. -/
theorem C64_element (he : env.Real) (e : OElem P O K F) (hr : e.Real env) {cs : List (Coupling P (Key O K) F)}
    (h : e.setup env = .ok cs) (x : P × Key O K → F) (p : P) (k : Key O K) :
    (cs.map (fun c => c.into (fun t => star (x (t.1, t.2.conj))) (p, k.conj))).sum =
      star (cs.map (fun c => c.into x (p, k))).sum := by
  suffices hE : OEven cs from hE x p k
  cases e with
  | space e => cases h; exact space_even he e hr.1 hr.2
  | laser e => cases h; exact laser_even he e hr.1 hr.2
  | mirror m => exact Mirror.setup_even he hr h
  | pd p b w =>
    refine fills_even he p.i ⟨p, none, some b, some w, 1, 1, env.i, -env.i, 1, 1, true⟩ ⟨?_, ?_, ?_⟩ h
    · exact (star_one _).symm
    · exact he.i.symm
    · exact (star_one _).symm
  | magicPD p q w =>
    obtain ⟨u, v, hu, hv, rfl⟩ := blocks_append h
    apply oeven_append
    · refine fills_even he p.i ⟨p, some q, none, some w, 1, 1, 0, 0, 1, 1, true⟩ ⟨?_, ?_, ?_⟩ hu
      · exact (star_one _).symm
      · exact (star_zero _).symm
      · exact (star_one _).symm
    · obtain ⟨c, ds, hc, hd, rfl⟩ := blocks_cons hv
      obtain rfl := blocks_nil hd
      injection hc with hc
      rw [← hc, List.append_nil]
      exact edges_even he _ _ _ (fun _ => (star_one _).symm)
  | pm p q d b =>
    refine oeven_each h ?_
    intro pq _ c hc
    exact fills_even he _ _ (modulator_real_PM he _ _ _ _) hc
  | am p q d b =>
    refine oeven_each h ?_
    intro pq _ c hc
    exact fills_even he _ _ (modulator_real_AM he _ _ _ _ true) hc
  | ampm p q a b =>
    refine oeven_each h ?_
    intro pq _ c hc
    refine oeven_blocks (he.operm pq.1.i) hc ?_
    intro k _ d d' hd hd'
    refine blocks_conj ?_ hd hd'
    refine List.Forall₂.cons ?_ (List.Forall₂.cons ?_ List.Forall₂.nil)
    · intro c c' hc hc' x p t
      exact fill_conj _ (modulator_real_PM he _ _ _ _) (fun p _ => he.skeys p) (fun p _ => he.skeys p) k hc hc' x p t
    · intro c c' hc hc' x p t
      exact fill_conj _ (modulator_real_AM he _ _ _ _ false) (fun p _ => he.skeys p) (fun p _ => he.skeys p) k hc hc' x p t
  | circulator l =>
    cases h
    apply oeven_flatMap_each
    intro pi _
    split
    · exact oeven_nil
    · exact edges_even he _ _ _ (fun _ => (star_one _).symm)
  | rotator e => cases h; exact rotator_even he e (by rw [star_neg, star_one]) hr
  | faraday e => cases h; exact rotator_even he e (star_one _) hr
  | wavePlate e => cases h; exact wave_plate_even he e hr.1 hr.2
  | polSelector p a b => cases h; exact pol_selector_even he p a b
  | selector p l => exact selector_even he p hr h
  | owire a b => cases h; exact edges_even he _ _ _ (fun _ => (star_one _).symm)
  | swire a b =>
    cases h
    apply oeven_map (he.skeys a).perm
    intro k _ x p t
    have := edge_conj x a b p (.sig k) (.sig k) t 1
    rw [star_one] at this
    exact this

/-- **C64.**  If a field solves the equations of a system of optical elements with real data, so does its conjugate field.
When the solution is unique, the raising amplitude at every key is the conjugate of the lowering one, and signals are
real. -/
theorem C64_real (he : env.Real) (es : List (OElem P O K F)) (hr : ∀ e ∈ es, e.Real env)
    {cs : List (Coupling P (Key O K) F)} (h : blocks (es.map (OElem.setup env)) = .ok cs) {x : P × Key O K → F}
    (hx : ∀ t, x t = (cs.map (fun c => c.into x t)).sum) :
    (∀ t, star (x (t.1, t.2.conj)) = (cs.map (fun c => c.into (fun t => star (x (t.1, t.2.conj))) t)).sum) ∧
    ((∀ y : P × Key O K → F, (∀ t, y t = (cs.map (fun c => c.into y t)).sum) → y = x) →
      (∀ p (k : OKey O K), x (p, .opt { k with q := k.q.conj }) = star (x (p, .opt k))) ∧
      ∀ p k, x (p, .sig (-k)) = star (x (p, .sig k))) := by
  have hE : OEven cs := oeven_each h (fun e hm c hc => fun x p k => C64_element he e (hr e hm) hc x p k)
  have h1 : ∀ t, star (x (t.1, t.2.conj)) = (cs.map (fun c => c.into (fun t => star (x (t.1, t.2.conj))) t)).sum := by
    rintro ⟨p, k⟩
    have := hE x p k.conj
    rw [Key.conj_conj] at this
    exact (this.trans (congrArg star (hx (p, k.conj)).symm)).symm
  refine ⟨h1, fun hu => ?_⟩
  have h2 : ∀ p k, x (p, Key.conj k) = star (x (p, k)) := by
    intro p k
    have := congrFun (hu _ h1) (p, k.conj)
    rw [← this]
    show star (x (p, k.conj.conj)) = _
    rw [Key.conj_conj]
  exact ⟨fun p k => h2 p (.opt k), fun p k => h2 p (.sig k)⟩

/-! ## example: a laser on a photodiode -/

/-- One carrier at frequency 0 in one polarization. -/
noncomputable abbrev renv : OEnv ℕ Unit ℤ ℂ :=
  demo (fun _ => [⟨(), 0, .S, .lower⟩, ⟨(), 0, .S, .raise⟩]) (fun _ => [0]) (fun _ => false)

/-- A laser of 4 W with phase 1, a bond, and a photodiode. -/
noncomputable def rnet : List (OElem ℕ Unit ℤ ℂ) :=
  [.laser ⟨⟨0, 1⟩, 4, 1, .S, (), 0⟩, .owire 1 2, .pd ⟨2, 3⟩ 4 5]

theorem demo_real {P : Type} (ok : P → List (OKey Unit ℤ)) (sk : P → List ℤ) (rej : ℤ → Bool)
    (ho : ∀ p, (ok p).Nodup ∧ ∀ k ∈ ok p, ({ k with q := k.q.conj } : OKey Unit ℤ) ∈ ok p) (hs : ∀ p, Balanced (sk p)) :
    (demo ok sk rej).Real where
  okeys := ho
  skeys := hs
  iwavelen := fun _ => by simp [demo]
  freq := fun k => by simp [demo]
  i := by simp [demo]
  i2pi := by simp [demo]
  pi := by simp [demo]
  c_m_s := by simp [demo]
  exp := fun z => (Complex.exp_conj z).symm
  cos := fun z => (Complex.cos_conj z).symm
  sin := fun z => (Complex.sin_conj z).symm

set_option maxHeartbeats 1000000 in
example : renv.Real ∧ (∀ e ∈ rnet, e.Real renv) ∧ ∃ cs, blocks (rnet.map (OElem.setup renv)) = .ok cs ∧
    ∃ x : ℕ × Key Unit ℤ → ℂ, (∀ t, x t = (cs.map (fun c => c.into x t)).sum) ∧
      (∀ y : ℕ × Key Unit ℤ → ℂ, (∀ t, y t = (cs.map (fun c => c.into y t)).sum) → y = x) ∧
      x (1, .opt ⟨(), 0, .S, .lower⟩) = csqrt 4 * Complex.exp (Complex.I * 1) := by
  have hcs : ∃ cs, blocks (rnet.map (OElem.setup renv)) = .ok cs ∧ ∀ (y : ℕ × Key Unit ℤ → ℂ) t,
      (cs.map (fun c => c.into y t)).sum =
      (if on 1 ⟨(), 0, .S, .lower⟩ = t then csqrt 4 * Complex.exp (Complex.I * 1) else 0) +
      (if on 1 ⟨(), 0, .S, .raise⟩ = t then csqrt 4 * Complex.exp (-Complex.I * 1) else 0) +
      (if on 2 ⟨(), 0, .S, .lower⟩ = t then y (on 1 ⟨(), 0, .S, .lower⟩) else 0) +
      (if on 2 ⟨(), 0, .S, .raise⟩ = t then y (on 1 ⟨(), 0, .S, .raise⟩) else 0) +
      (if sn 5 0 = t then y (on 2 ⟨(), 0, .S, .lower⟩) * y (on 2 ⟨(), 0, .S, .raise⟩) else 0) := by
    refine ⟨[.source (on 1 ⟨(), 0, .S, .lower⟩) (csqrt 4 * Complex.exp (Complex.I * 1)),
      .source (on 1 ⟨(), 0, .S, .raise⟩) (csqrt 4 * Complex.exp (-Complex.I * 1)),
      .edge (on 1 ⟨(), 0, .S, .lower⟩) (on 2 ⟨(), 0, .S, .lower⟩) 1,
      .edge (on 1 ⟨(), 0, .S, .raise⟩) (on 2 ⟨(), 0, .S, .raise⟩) 1,
      .multEdge (on 2 ⟨(), 0, .S, .lower⟩) (sn 5 0) (1 * 1 / 2) [on 2 ⟨(), 0, .S, .raise⟩],
      .multEdge (on 2 ⟨(), 0, .S, .raise⟩) (sn 5 0) (1 * 1 / 2) [on 2 ⟨(), 0, .S, .lower⟩]], rfl, fun y t => ?_⟩
    simp only [List.map_cons, List.map_nil, List.sum_cons, List.sum_nil, into_edge, into_source, into_multEdge]
    split_ifs <;> ring
  obtain ⟨cs, hcs, htot⟩ := hcs
  refine ⟨demo_real _ _ _ (fun _ => ⟨by decide, by decide⟩) (fun _ => ⟨by decide, by decide⟩), ?_, cs, hcs, ?_⟩
  · intro e he
    simp only [rnet, List.mem_cons, List.not_mem_nil, or_false] at he
    rcases he with rfl | rfl | rfl
    · exact ⟨csqrt_real _, star_one _⟩
    · trivial
    · trivial
  · set a : ℂ := csqrt 4 * Complex.exp (Complex.I * 1)
    set b : ℂ := csqrt 4 * Complex.exp (-Complex.I * 1)
    set x : ℕ × Key Unit ℤ → ℂ := fun t =>
      (if on 1 ⟨(), 0, .S, .lower⟩ = t then a else 0) + (if on 1 ⟨(), 0, .S, .raise⟩ = t then b else 0) +
      (if on 2 ⟨(), 0, .S, .lower⟩ = t then a else 0) + (if on 2 ⟨(), 0, .S, .raise⟩ = t then b else 0) +
      (if sn 5 0 = t then a * b else 0) with hx
    have h1 : ∀ y : ℕ × Key Unit ℤ → ℂ, (∀ t, y t = (cs.map (fun c => c.into y t)).sum) → y = x := by
      intro y hy
      have y1 := hy (on 1 ⟨(), 0, .S, .lower⟩)
      have y2 := hy (on 1 ⟨(), 0, .S, .raise⟩)
      have y3 := hy (on 2 ⟨(), 0, .S, .lower⟩)
      have y4 := hy (on 2 ⟨(), 0, .S, .raise⟩)
      rw [htot] at y1 y2 y3 y4
      simp only [Prod.mk.injEq, Key.opt.injEq, OKey.mk.injEq, reduceCtorEq, and_false, and_true, if_false, if_true,
        add_zero, zero_add, Nat.reduceEqDiff, false_and, OfNat.one_ne_ofNat, OfNat.ofNat_ne_one] at y1 y2 y3 y4
      funext t
      rw [hy t, htot, y3, y4, y1, y2]
    refine ⟨x, fun t => ?_, h1, ?_⟩
    · rw [htot]
      have x1 : x (on 1 ⟨(), 0, .S, .lower⟩) = a := by simp [hx]
      have x2 : x (on 1 ⟨(), 0, .S, .raise⟩) = b := by simp [hx]
      have x3 : x (on 2 ⟨(), 0, .S, .lower⟩) = a := by simp [hx]
      have x4 : x (on 2 ⟨(), 0, .S, .raise⟩) = b := by simp [hx]
      rw [x1, x2, x3, x4]
    · simp [hx]

end Optics
