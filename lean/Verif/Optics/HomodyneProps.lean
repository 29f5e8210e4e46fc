import Mathlib.Algebra.BigOperators.Field
import Mathlib.Analysis.SpecialFunctions.Complex.Circle
import Verif.Optics.Homodyne

/-!
# Homodyne detectors with a hidden oscillator (C136)
-/

set_option linter.unusedSectionVars false

namespace Optics
open Py Inject Circuit
open Signal (Balanced wave)

variable {P O K F : Type} [DecidableEq P] [DecidableEq O] [DecidableEq K] [AddCommGroup K] [Field F] [StarRing F]
  [DecidableEq F]
variable {env : OEnv P O K F} {abs : F → F} {h_Js : F}

/-- What the theorems ask of the keys, the ports and the fields of a detector: fields at both quanta and at accepted frequencies,
signals at both signs, different outputs. -/
structure Homodyne.Fits (e : Homodyne P F) (env : OEnv P O K F) (abs : F → F) (x : P × Key O K → F) : Prop where
  nodup : ∀ p, (env.okeys p).Nodup
  conj : ∀ p, ∀ k ∈ env.okeys p, k.conj ∈ env.okeys p
  accept : ∀ p, ∀ k ∈ env.okeys p, env.reject k.cls = false
  zero : ∀ p k, k ∉ env.okeys p → x (on p k) = 0
  balanced : ∀ p, Balanced (env.skeys p)
  outs : (e.rtWpdCmn :: (e.channels env abs).map Channel.out).Nodup

theorem channel_products (c : Channel P F) (x : P × Key O K → F) :
    Products (fun a b t g => Coupling.tripletNorms a b t (c.norm_ports.map (fun p => sn p 0)) g c.norms_func) x
      (c.norms_func (c.norm_ports.map (fun p => x (sn p 0)))) := by
  intro a b t g t'
  show (if t = t' then g * x a * x b / c.norms_func ((c.norm_ports.map (fun p => sn p 0)).map x) else 0) = _
  rw [List.map_map]
  rfl

theorem common_products (n : P) (f : F → F) (x : P × Key O K → F) :
    Products (fun a b t g => Coupling.tripletNorm a b t (sn n 0) g f) x (f (x (sn n 0))) := fun _ _ _ _ _ => rfl

theorem common_total {e : Homodyne P F} {x : P × Key O K → F} (hf : e.Fits env abs x) (p : P)
    {cs : List (Coupling P (Key O K) F)} (h : blocks ((env.okeys p).map (e.common env p)) = .ok cs) :
    (∀ t, (∀ f, sn e.rtWpdCmn f ≠ t) → total cs x t = 0) ∧ ∀ δ ∈ env.skeys e.rtWpdCmn,
      total cs x (sn e.rtWpdCmn δ) = cross (fun _ => 1) (env.okeys p) (fun k => x (on p k)) (env.okeys p) (fun k => x (on p k)) δ
        * (1 / 2 + 1 / 2) / env.sqrt (x (sn e.PWR_tot 0)) := by
  constructor
  · intro t ht
    rw [blocks_map (g := fun _ => 0) h
      (fun k _ ds hd => hd_loop_off env (common_products e.PWR_tot env.sqrt x) (hf.balanced _) hd ht)]
    simp
  · intro δ hδ
    rw [blocks_map h (fun k _ ds hd => hd_loop_at env (common_products e.PWR_tot env.sqrt x) (hf.balanced _) hd hδ)]
    have := hd_cross env (hf.nodup p) (hf.conj p) (hf.accept p) (fun _ => 1) p p e.rtWpdCmn x (hf.zero p) δ (1 / 2) (1 / 2)
      (env.sqrt (x (sn e.PWR_tot 0)))
    simp only [mul_one] at this
    rw [this]
    ring

/-- the parts of the setup -/
theorem setup_parts {e : Homodyne P F} {cs : List (Coupling P (Key O K) F)} (h : e.setup env abs h_Js = .ok cs) :
    ∃ as bs ds,
      blocks ((env.okeys e.source_port).map (fun k => blocks ((e.channels env abs).map (insert_coupling env h_Js e k)))) = .ok as ∧
      blocks ((env.okeys e.po_Fr.i).map (e.common env e.po_Fr.i)) = .ok bs ∧
      (if e.source_port ≠ e.po_Fr.i then blocks ((env.okeys e.source_port).map (e.common env e.source_port)) else .ok []) = .ok ds ∧
      cs = as ++ ((env.okeys e.po_Bk.i).map (fun k => .edge (on e.po_Bk.i k) (on e.po_Fr.o k) 1) ++
        ((env.okeys e.po_Fr.i).map (fun k => .edge (on e.po_Fr.i k) (on e.po_Bk.o k) 1) ++ (bs ++ ds))) := by
  unfold Homodyne.setup at h
  obtain ⟨as, r1, h1, g1, rfl⟩ := blocks_cons h
  obtain ⟨b1, r2, h2, g2, rfl⟩ := blocks_cons g1
  obtain ⟨b2, r3, h3, g3, rfl⟩ := blocks_cons g2
  obtain ⟨bs, r4, h4, g4, rfl⟩ := blocks_cons g3
  obtain ⟨ds, r5, h5, g5, rfl⟩ := blocks_cons g4
  obtain rfl := blocks_nil g5
  injection h2 with h2
  injection h3 with h3
  subst h2; subst h3
  exact ⟨as, bs, ds, h1, h4, h5, by rw [List.append_nil]⟩

theorem tail_total {e : Homodyne P F} {x : P × Key O K → F} (hf : e.Fits env abs x) {bs ds : List (Coupling P (Key O K) F)}
    (h1 : blocks ((env.okeys e.po_Fr.i).map (e.common env e.po_Fr.i)) = .ok bs)
    (h2 : (if e.source_port ≠ e.po_Fr.i then blocks ((env.okeys e.source_port).map (e.common env e.source_port)) else .ok []) = .ok ds)
    {t : P × Key O K} (ht : ∀ f, sn e.rtWpdCmn f ≠ t) : total bs x t = 0 ∧ total ds x t = 0 := by
  refine ⟨(common_total hf _ h1).1 t ht, ?_⟩
  split_ifs at h2
  · exact (common_total hf _ h2).1 t ht
  · injection h2 with h2
    subst h2
    rfl

theorem channels_total {e : Homodyne P F} {x : P × Key O K → F} (hf : e.Fits env abs x) {as : List (Coupling P (Key O K) F)}
    (h : blocks ((env.okeys e.source_port).map (fun k => blocks ((e.channels env abs).map (insert_coupling env h_Js e k)))) = .ok as) :
    (∀ t, (∀ c ∈ e.channels env abs, ∀ f, sn c.out f ≠ t) → total as x t = 0) ∧
    ∀ c ∈ e.channels env abs, ∀ δ ∈ env.skeys c.out, total as x (sn c.out δ) =
      (c.Stdcplg / 2 * cross (c.adjust env h_Js) (env.okeys e.po_Fr.i) (fun k => x (on e.po_Fr.i k)) (env.okeys e.source_port)
          (fun k => x (on e.source_port k)) δ
        + c.StdcplgC / 2 * cross (c.adjust env h_Js) (env.okeys e.source_port) (fun k => x (on e.source_port k)) (env.okeys e.po_Fr.i)
          (fun k => x (on e.po_Fr.i k)) δ) / c.norms_func (c.norm_ports.map (fun p => x (sn p 0))) := by
  have hoff : ∀ k ∈ env.okeys e.source_port, ∀ c, ∀ ds, insert_coupling env h_Js e k c = .ok ds → ∀ t,
      (∀ f, sn c.out f ≠ t) → total ds x t = 0 := fun k _ c ds hd t ht =>
    hd_loop_off env (channel_products c x) (hf.balanced _) hd ht
  constructor
  · intro t ht
    rw [blocks_map (g := fun _ => 0) h]
    · simp
    · intro k hk ds hd
      rw [blocks_map (g := fun _ => 0) hd (fun c hc ds hd => hoff k hk c ds hd t (ht c hc))]
      simp
  · intro c hc δ hδ
    rw [blocks_map (g := fun k => hdTerm env e.po_Fr.i e.source_port c.out (c.Stdcplg / 2 * c.adjust env h_Js k.opt)
      (c.StdcplgC / 2 * c.adjust env h_Js k.opt) (c.norms_func (c.norm_ports.map (fun p => x (sn p 0)))) k x (sn c.out δ) δ) h]
    · exact hd_cross env (hf.nodup _) (hf.conj _) (hf.accept _) _ _ _ _ x (hf.zero _) δ _ _ _
    · intro k hk ds hd
      obtain ⟨l, r, hl⟩ := List.append_of_mem hc
      have hnd : ((e.channels env abs).map Channel.out).Nodup := (List.nodup_cons.1 hf.outs).2
      have hne : ∀ d, d ∈ l ∨ d ∈ r → d.out ≠ c.out := by
        intro d hd heq
        rw [hl, List.map_append, List.map_cons] at hnd
        have h1 := List.nodup_append.1 hnd
        rcases hd with hd | hd
        · exact h1.2.2 d.out (List.mem_map_of_mem hd) c.out List.mem_cons_self heq
        · exact (List.nodup_cons.1 h1.2.1).1 (heq ▸ List.mem_map_of_mem hd)
      have hz : ∀ d, d ∈ l ∨ d ∈ r → ∀ ds, insert_coupling env h_Js e k d = .ok ds → total ds x (sn c.out δ) = 0 :=
        fun d hd ds hds => hoff k hk d ds hds _ (fun f h => hne d hd (congrArg Prod.fst h))
      rw [hl, List.map_append, List.map_cons] at hd
      obtain ⟨d1, d2, hd1, hd2, rfl⟩ := blocks_append hd
      obtain ⟨d3, d4, hd3, hd4, rfl⟩ := blocks_cons hd2
      rw [total_append, total_append, blocks_map (g := fun _ => 0) hd1 (fun d hd ds hds => hz d (Or.inl hd) ds hds),
        blocks_map (g := fun _ => 0) hd4 (fun d hd ds hds => hz d (Or.inr hd) ds hds),
        hd_loop_at env (channel_products c x) (hf.balanced _) hd3 hδ]
      simp

/-- **C136, signals.**  Each output of the detector is, at the frequency `δ`, half the sum of the beat of the lowering fields at the
front with the raising fields of the oscillator times the factor of the output, and of the beat of the raising fields at the front with
the lowering fields of the oscillator times the conjugate factor, over the norm of the output. -/
theorem C136_signal {e : Homodyne P F} {x : P × Key O K → F} (hf : e.Fits env abs x) {cs : List (Coupling P (Key O K) F)}
    (h : e.setup env abs h_Js = .ok cs) {c : Channel P F} (hc : c ∈ e.channels env abs) {δ : K} (hδ : δ ∈ env.skeys c.out) :
    (cs.map (fun cp => cp.into x (c.out, .sig δ))).sum =
      (c.Stdcplg * (∑ a ∈ (env.okeys e.po_Fr.i).toFinset, ∑ b ∈ (env.okeys e.source_port).toFinset,
          if a.q = .lower ∧ b.q = .raise ∧ a.opt = b.opt ∧ a.pol = b.pol ∧ a.cls = b.cls + δ then
            c.adjust env h_Js a.opt * (x (e.po_Fr.i, .opt a) * x (e.source_port, .opt b)) else 0)
        + c.StdcplgC * (∑ a ∈ (env.okeys e.source_port).toFinset, ∑ b ∈ (env.okeys e.po_Fr.i).toFinset,
          if a.q = .lower ∧ b.q = .raise ∧ a.opt = b.opt ∧ a.pol = b.pol ∧ a.cls = b.cls + δ then
            c.adjust env h_Js a.opt * (x (e.source_port, .opt a) * x (e.po_Fr.i, .opt b)) else 0)) / 2
        / c.norms_func (c.norm_ports.map (fun p => x (p, .sig 0))) := by
  obtain ⟨as, bs, ds, h1, h2, h3, rfl⟩ := setup_parts h
  show total _ x (sn c.out δ) = _
  have ht : ∀ f : K, (sn e.rtWpdCmn f : P × Key O K) ≠ sn c.out δ := fun f he =>
    (List.nodup_cons.1 hf.outs).1 ((show e.rtWpdCmn = c.out from congrArg Prod.fst he) ▸ List.mem_map_of_mem hc)
  obtain ⟨t1, t2⟩ := tail_total hf h2 h3 ht
  rw [total_append, total_append, total_append, total_append, t1, t2, edges_sig _ _ _ (fun _ => 1), edges_sig _ _ _ (fun _ => 1),
    (channels_total hf h1).2 c hc δ hδ]
  show (c.Stdcplg / 2 * cross _ _ _ _ _ δ + c.StdcplgC / 2 * cross _ _ _ _ _ δ) / _ + _ =
    (c.Stdcplg * cross (c.adjust env h_Js) _ _ _ _ δ + c.StdcplgC * cross (c.adjust env h_Js) _ _ _ _ δ) / 2 / _
  ring

/-- **C136, common signal.**  The common output is the sum of the beats of the light at the front with itself and, if the oscillator is at
another port, of the oscillator with itself, over the root of the power of the oscillator. -/
theorem C136_common {e : Homodyne P F} {x : P × Key O K → F} (hf : e.Fits env abs x) {cs : List (Coupling P (Key O K) F)}
    (h : e.setup env abs h_Js = .ok cs) (h2 : (2 : F) ≠ 0) {δ : K} (hδ : δ ∈ env.skeys e.rtWpdCmn) :
    (cs.map (fun cp => cp.into x (e.rtWpdCmn, .sig δ))).sum =
      (beat (env.okeys e.po_Fr.i) (fun k => x (e.po_Fr.i, .opt k)) δ
        + if e.source_port = e.po_Fr.i then 0 else beat (env.okeys e.source_port) (fun k => x (e.source_port, .opt k)) δ)
        / env.sqrt (x (e.PWR_tot, .sig 0)) := by
  obtain ⟨as, bs, ds, h1, h3, h4, rfl⟩ := setup_parts h
  show total _ x (sn e.rtWpdCmn δ) = _
  have hhalf : (1 / 2 + 1 / 2 : F) = 1 := by rw [← add_div, one_add_one_eq_two, div_self h2]
  have hb : ∀ p : P, cross (fun _ => 1) (env.okeys p) (fun k => x (on p k)) (env.okeys p) (fun k => x (on p k)) δ
      = beat (env.okeys p) (fun k => x (p, .opt k)) δ := by
    intro p
    unfold cross beat
    simp only [one_mul]
  have ha : total as x (sn e.rtWpdCmn δ) = 0 := by
    refine (channels_total hf h1).1 _ (fun c hc f he => ?_)
    exact (List.nodup_cons.1 hf.outs).1 ((show c.out = e.rtWpdCmn from congrArg Prod.fst he) ▸ List.mem_map_of_mem hc)
  rw [total_append, total_append, total_append, total_append, ha, edges_sig _ _ _ (fun _ => 1), edges_sig _ _ _ (fun _ => 1),
    (common_total hf _ h3).2 δ hδ, hhalf, hb]
  by_cases hs : e.source_port = e.po_Fr.i
  · rw [if_neg (not_not.2 hs)] at h4
    injection h4 with h4
    subst h4
    rw [if_pos hs, total_nil]
    ring
  · rw [if_pos hs] at h4
    rw [if_neg hs, (common_total hf _ h4).2 δ hδ, hhalf, hb]
    ring

/-- **C136, passage.**  The detector lets the light through in both directions unchanged. -/
theorem C136_through {e : Homodyne P F} {x : P × Key O K → F} (hf : e.Fits env abs x) {cs : List (Coupling P (Key O K) F)}
    (h : e.setup env abs h_Js = .ok cs) (hne : e.po_Fr.o ≠ e.po_Bk.o) (k : OKey O K) :
    (cs.map (fun cp => cp.into x (e.po_Bk.o, .opt k))).sum = x (e.po_Fr.i, .opt k) ∧
    (cs.map (fun cp => cp.into x (e.po_Fr.o, .opt k))).sum = x (e.po_Bk.i, .opt k) := by
  obtain ⟨as, bs, ds, h1, h2, h3, rfl⟩ := setup_parts h
  have hopt : ∀ (q : P), (∀ f, sn e.rtWpdCmn f ≠ on q k) ∧ ∀ c ∈ e.channels env abs, ∀ f, sn c.out f ≠ on q k :=
    fun q => ⟨fun f h => (by cases (congrArg Prod.snd h)), fun c _ f h => (by cases (congrArg Prod.snd h))⟩
  have one : ∀ (p q r : P), (if q = r ∧ k ∈ env.okeys p then (1 : F) * x (on p k) else 0) = if q = r then x (on p k) else 0 := by
    intro p q r
    by_cases hk : k ∈ env.okeys p
    · simp [hk]
    · simp [hk, hf.zero p k hk]
  constructor
  · show total _ x (on e.po_Bk.o k) = _
    obtain ⟨t1, t2⟩ := tail_total hf h2 h3 (hopt e.po_Bk.o).1
    rw [total_append, total_append, total_append, total_append, t1, t2, (channels_total hf h1).1 _ (hopt _).2,
      edges_total (hf.nodup _) _ _ (fun _ => 1), edges_total (hf.nodup _) _ _ (fun _ => 1), one, one, if_neg hne, if_pos rfl]
    ring
  · show total _ x (on e.po_Fr.o k) = _
    obtain ⟨t1, t2⟩ := tail_total hf h2 h3 (hopt e.po_Fr.o).1
    rw [total_append, total_append, total_append, total_append, t1, t2, (channels_total hf h1).1 _ (hopt _).2,
      edges_total (hf.nodup _) _ _ (fun _ => 1), edges_total (hf.nodup _) _ _ (fun _ => 1), one, one, if_neg hne.symm, if_pos rfl]
    ring

/-- **C136, no error.**  The setup raises nothing. -/
theorem C136_ok {e : Homodyne P F} (hb : ∀ p, Balanced (env.skeys p)) : ∃ cs, e.setup env abs h_Js = .ok cs := by
  have hloop : ∀ (p : P) (f : K → List (Coupling P (Key O K) F)), ∃ cs, pair_loop (env.skeys p) false f [] (env.skeys p) = .ok cs :=
    fun p f => pair_loop_ok (hb p).2 _ _ _ _ (fun _ h => h)
  have hcom : ∀ p, ∃ cs, blocks ((env.okeys p).map (e.common env p)) = .ok cs := by
    intro p
    apply blocks_ok
    intro b hb'
    obtain ⟨k, _, rfl⟩ := List.mem_map.1 hb'
    exact hloop _ _
  apply blocks_ok
  intro b hb'
  simp only [List.mem_cons, List.not_mem_nil, or_false] at hb'
  rcases hb' with rfl | rfl | rfl | rfl | rfl
  · apply blocks_ok
    intro b hb'
    obtain ⟨k, _, rfl⟩ := List.mem_map.1 hb'
    apply blocks_ok
    intro b hb'
    obtain ⟨c, _, rfl⟩ := List.mem_map.1 hb'
    exact hloop _ _
  · exact ⟨_, rfl⟩
  · exact ⟨_, rfl⟩
  · exact hcom _
  · split_ifs
    · exact hcom _
    · exact ⟨_, rfl⟩


/-! ## the two quadratures -/

theorem quad_total {e : Homodyne P F} {x : P × Key O K → F} (hf : e.Fits env abs x) {cs : List (Coupling P (Key O K) F)}
    (h : e.setup env abs h_Js = .ok cs) {A B : F} {δ : K}
    (hA : cross (fun _ => 1) (env.okeys e.po_Fr.i) (fun k => x (e.po_Fr.i, .opt k)) (env.okeys e.source_port)
      (fun k => x (e.source_port, .opt k)) δ = A)
    (hB : cross (fun _ => 1) (env.okeys e.source_port) (fun k => x (e.source_port, .opt k)) (env.okeys e.po_Fr.i)
      (fun k => x (e.po_Fr.i, .opt k)) δ = B) :
    (δ ∈ env.skeys e.rtWpdI → total cs x (sn e.rtWpdI δ) =
      ((hd_std env abs e.phase_deg).1 * A + (hd_std env abs e.phase_deg).2 * B) / 2
        / env.sqrt (abs (x (sn e.PWR_tot 0)) + 1 / 10 ^ 20)) ∧
    (δ ∈ env.skeys e.rtWpdQ → total cs x (sn e.rtWpdQ δ) =
      (env.i * (hd_std env abs e.phase_deg).1 * A + -env.i * (hd_std env abs e.phase_deg).2 * B) / 2
        / env.sqrt (abs (x (sn e.PWR_tot 0)) + 1 / 10 ^ 20)) := by
  subst hA hB
  refine ⟨fun hδ => ?_, fun hδ => ?_⟩
  · exact C136_signal hf h (c := ⟨e.rtWpdI, (hd_std env abs e.phase_deg).1, (hd_std env abs e.phase_deg).2, [e.PWR_tot], false,
      norm_one env abs⟩) (by simp [Homodyne.channels]) hδ
  · exact C136_signal hf h (c := ⟨e.rtWpdQ, env.i * (hd_std env abs e.phase_deg).1, -env.i * (hd_std env abs e.phase_deg).2,
      [e.PWR_tot], false, norm_one env abs⟩) (by simp [Homodyne.channels]) hδ

/-- **C136, other outputs.**  The outputs in quanta weigh each carrier by one over the root of half the energy of its photons; the relative
outputs have the root of the product of the power of the oscillator and the power of the light as their norm. -/
theorem C136_outputs {e : Homodyne P F} {x : P × Key O K → F} (hf : e.Fits env abs x) {cs : List (Coupling P (Key O K) F)}
    (h : e.setup env abs h_Js = .ok cs) (δ : K) :
    (∀ qI qQ, e.quanta = some (qI, qQ) →
      ∀ A B, cross (fun o => 1 / env.sqrt (h_Js * env.c_m_s * env.iwavelen_m o / 2)) (env.okeys e.po_Fr.i)
          (fun k => x (e.po_Fr.i, .opt k)) (env.okeys e.source_port) (fun k => x (e.source_port, .opt k)) δ = A →
        cross (fun o => 1 / env.sqrt (h_Js * env.c_m_s * env.iwavelen_m o / 2)) (env.okeys e.source_port)
          (fun k => x (e.source_port, .opt k)) (env.okeys e.po_Fr.i) (fun k => x (e.po_Fr.i, .opt k)) δ = B →
        (δ ∈ env.skeys qI → (cs.map (fun c => c.into x (qI, .sig δ))).sum =
          ((hd_std env abs e.phase_deg).1 * A + (hd_std env abs e.phase_deg).2 * B) / 2
            / env.sqrt (abs (x (e.PWR_tot, .sig 0)) + 1 / 10 ^ 20)) ∧
        (δ ∈ env.skeys qQ → (cs.map (fun c => c.into x (qQ, .sig δ))).sum =
          (env.i * (hd_std env abs e.phase_deg).1 * A + -env.i * (hd_std env abs e.phase_deg).2 * B) / 2
            / env.sqrt (abs (x (e.PWR_tot, .sig 0)) + 1 / 10 ^ 20))) ∧
    (∀ RinI RadQ PWR_in, e.relative = some (RinI, RadQ, PWR_in) →
      ∀ A B, cross (fun _ => 1) (env.okeys e.po_Fr.i)
          (fun k => x (e.po_Fr.i, .opt k)) (env.okeys e.source_port) (fun k => x (e.source_port, .opt k)) δ = A →
        cross (fun _ => 1) (env.okeys e.source_port)
          (fun k => x (e.source_port, .opt k)) (env.okeys e.po_Fr.i) (fun k => x (e.po_Fr.i, .opt k)) δ = B →
        (δ ∈ env.skeys RinI → (cs.map (fun c => c.into x (RinI, .sig δ))).sum =
          ((hd_std env abs e.phase_deg).1 * A + (hd_std env abs e.phase_deg).2 * B) / 2
            / env.sqrt (abs (x (PWR_in, .sig 0) * x (e.PWR_tot, .sig 0)) + 1 / 10 ^ 20)) ∧
        (δ ∈ env.skeys RadQ → (cs.map (fun c => c.into x (RadQ, .sig δ))).sum =
          (env.i * (hd_std env abs e.phase_deg).1 * A + -env.i * (hd_std env abs e.phase_deg).2 * B) / 2
            / env.sqrt (abs (x (PWR_in, .sig 0) * x (e.PWR_tot, .sig 0)) + 1 / 10 ^ 20))) := by
  constructor
  · rintro qI qQ hq A B rfl rfl
    exact ⟨fun hδ => C136_signal hf h (c := ⟨qI, (hd_std env abs e.phase_deg).1, (hd_std env abs e.phase_deg).2, [e.PWR_tot], true,
        norm_one env abs⟩) (by simp [Homodyne.channels, hq]) hδ,
      fun hδ => C136_signal hf h (c := ⟨qQ, env.i * (hd_std env abs e.phase_deg).1, -env.i * (hd_std env abs e.phase_deg).2, [e.PWR_tot],
        true, norm_one env abs⟩) (by simp [Homodyne.channels, hq]) hδ⟩
  · rintro RinI RadQ PWR_in hq A B rfl rfl
    exact ⟨fun hδ => C136_signal hf h (c := ⟨RinI, (hd_std env abs e.phase_deg).1, (hd_std env abs e.phase_deg).2, [e.PWR_tot, PWR_in],
        false, norm_two env abs⟩) (by simp [Homodyne.channels, hq]) hδ,
      fun hδ => C136_signal hf h (c := ⟨RadQ, env.i * (hd_std env abs e.phase_deg).1, -env.i * (hd_std env abs e.phase_deg).2,
        [e.PWR_tot, PWR_in], false, norm_two env abs⟩) (by simp [Homodyne.channels, hq]) hδ⟩

/-- **C136, both quadratures.**  Out of the two quadratures one gets both products: the lowering fields at the front times the raising
oscillator, and the raising fields at the front times the lowering oscillator. -/
theorem C136_sidebands (hi : env.i * env.i = -1) (h2 : (2 : F) ≠ 0) {e : Homodyne P F} {x : P × Key O K → F}
    (hf : e.Fits env abs x) {cs : List (Coupling P (Key O K) F)} (h : e.setup env abs h_Js = .ok cs) {δ : K}
    (hI : δ ∈ env.skeys e.rtWpdI) (hQ : δ ∈ env.skeys e.rtWpdQ) :
    (cs.map (fun c => c.into x (e.rtWpdI, .sig δ))).sum - env.i * (cs.map (fun c => c.into x (e.rtWpdQ, .sig δ))).sum =
      (hd_std env abs e.phase_deg).1 * cross (fun _ => 1) (env.okeys e.po_Fr.i) (fun k => x (e.po_Fr.i, .opt k))
        (env.okeys e.source_port) (fun k => x (e.source_port, .opt k)) δ / env.sqrt (abs (x (e.PWR_tot, .sig 0)) + 1 / 10 ^ 20) ∧
    (cs.map (fun c => c.into x (e.rtWpdI, .sig δ))).sum + env.i * (cs.map (fun c => c.into x (e.rtWpdQ, .sig δ))).sum =
      (hd_std env abs e.phase_deg).2 * cross (fun _ => 1) (env.okeys e.source_port) (fun k => x (e.source_port, .opt k))
        (env.okeys e.po_Fr.i) (fun k => x (e.po_Fr.i, .opt k)) δ / env.sqrt (abs (x (e.PWR_tot, .sig 0)) + 1 / 10 ^ 20) := by
  have h1 := (quad_total hf h rfl rfl).1 hI
  have h3 := (quad_total hf h rfl rfl).2 hQ
  show total cs x (sn e.rtWpdI δ) - env.i * total cs x (sn e.rtWpdQ δ) = _ ∧
    total cs x (sn e.rtWpdI δ) + env.i * total cs x (sn e.rtWpdQ δ) = _
  rw [h1, h3]
  generalize cross (fun _ => (1 : F)) (env.okeys e.po_Fr.i) (fun k => x (e.po_Fr.i, .opt k)) (env.okeys e.source_port)
    (fun k => x (e.source_port, .opt k)) δ = A
  generalize cross (fun _ => (1 : F)) (env.okeys e.source_port) (fun k => x (e.source_port, .opt k)) (env.okeys e.po_Fr.i)
    (fun k => x (e.po_Fr.i, .opt k)) δ = B
  generalize (hd_std env abs e.phase_deg) = s
  show (s.1 * A + s.2 * B) / 2 / env.sqrt (abs (x (sn e.PWR_tot 0)) + 1 / 10 ^ 20) - env.i *
      ((env.i * s.1 * A + -env.i * s.2 * B) / 2 / env.sqrt (abs (x (sn e.PWR_tot 0)) + 1 / 10 ^ 20)) =
        s.1 * A / env.sqrt (abs (x (sn e.PWR_tot 0)) + 1 / 10 ^ 20) ∧
    (s.1 * A + s.2 * B) / 2 / env.sqrt (abs (x (sn e.PWR_tot 0)) + 1 / 10 ^ 20) + env.i *
      ((env.i * s.1 * A + -env.i * s.2 * B) / 2 / env.sqrt (abs (x (sn e.PWR_tot 0)) + 1 / 10 ^ 20)) =
        s.2 * B / env.sqrt (abs (x (sn e.PWR_tot 0)) + 1 / 10 ^ 20)
  generalize env.sqrt _ = N
  have e1 : (s.1 * A + s.2 * B) / 2 / N - env.i * ((env.i * s.1 * A + -env.i * s.2 * B) / 2 / N) =
      ((s.1 * A + s.2 * B) - (env.i * env.i) * (s.1 * A - s.2 * B)) / 2 / N := by ring
  have e2 : (s.1 * A + s.2 * B) / 2 / N + env.i * ((env.i * s.1 * A + -env.i * s.2 * B) / 2 / N) =
      ((s.1 * A + s.2 * B) + (env.i * env.i) * (s.1 * A - s.2 * B)) / 2 / N := by ring
  rw [e1, e2, hi]
  constructor
  · congr 1
    field_simp
    ring
  · congr 1
    field_simp
    ring

/-- **C136, at all times (part).**  Half the mean plus half of the product of the light and the oscillator: what the convention of
signals (`wave`) asks for is the product itself, so the detector gives half of every modulation. -/
theorem C136_wave_partial {e' : K → F} (he : ∀ k l, e' (k + l) = e' k * e' l) (he0 : e' 0 = 1) (h2 : (2 : F) ≠ 0)
    {e : Homodyne P F} {x : P × Key O K → F} (hf : e.Fits env abs x) {cs : List (Coupling P (Key O K) F)}
    (h : e.setup env abs h_Js = .ok cs) (h0 : 0 ∈ env.skeys e.rtWpdI)
    (hall : ∀ a ∈ env.okeys e.po_Fr.i, ∀ b ∈ env.okeys e.source_port, a.opt = b.opt → a.pol = b.pol →
      a.cls - b.cls ∈ env.skeys e.rtWpdI)
    {modes : List (O × Pol)} (hm : modes.Nodup)
    (hmodes : ∀ k, k ∈ env.okeys e.po_Fr.i ∨ k ∈ env.okeys e.source_port → (k.opt, k.pol) ∈ modes) :
    wave e' (env.skeys e.rtWpdI) (fun δ => (cs.map (fun c => c.into x (e.rtWpdI, .sig δ))).sum) =
      ((cs.map (fun c => c.into x (e.rtWpdI, .sig 0))).sum
        + (modes.map (fun md =>
            (hd_std env abs e.phase_deg).1 * (light e' (env.okeys e.po_Fr.i) (fun k => x (e.po_Fr.i, .opt k)) md .lower *
              light e' (env.okeys e.source_port) (fun k => x (e.source_port, .opt k)) md .raise)
            + (hd_std env abs e.phase_deg).2 * (light e' (env.okeys e.source_port) (fun k => x (e.source_port, .opt k)) md .lower *
              light e' (env.okeys e.po_Fr.i) (fun k => x (e.po_Fr.i, .opt k)) md .raise))).sum / 2
          / env.sqrt (abs (x (e.PWR_tot, .sig 0)) + 1 / 10 ^ 20)) / 2 := by
  set N := env.sqrt (abs (x (e.PWR_tot, .sig 0)) + 1 / 10 ^ 20) with hN
  set s := hd_std env abs e.phase_deg with hs
  set A : K → F := fun δ => cross (fun _ => 1) (env.okeys e.po_Fr.i) (fun k => x (e.po_Fr.i, .opt k)) (env.okeys e.source_port)
      (fun k => x (e.source_port, .opt k)) δ with hA
  set B : K → F := fun δ => cross (fun _ => 1) (env.okeys e.source_port) (fun k => x (e.source_port, .opt k)) (env.okeys e.po_Fr.i)
      (fun k => x (e.po_Fr.i, .opt k)) δ with hB
  have hv : ∀ δ ∈ env.skeys e.rtWpdI, (cs.map (fun c => c.into x (e.rtWpdI, .sig δ))).sum = (s.1 * A δ + s.2 * B δ) / 2 / N :=
    fun δ hδ => (quad_total hf h rfl rfl).1 hδ
  have hbal := hf.balanced e.rtWpdI
  have hall' : ∀ a ∈ env.okeys e.source_port, ∀ b ∈ env.okeys e.po_Fr.i, a.opt = b.opt → a.pol = b.pol →
      a.cls - b.cls ∈ env.skeys e.rtWpdI := by
    intro a ha b hb ho hp
    have := hbal.2 _ (hall b hb a ha ho.symm hp.symm)
    rwa [neg_sub] at this
  have wA := cross_wave he hbal.1 (fun _ => (1 : F)) (fun k => x (e.po_Fr.i, .opt k)) (fun k => x (e.source_port, .opt k)) hall hm
    (fun k hk => hmodes k (Or.inl hk))
  have wB := cross_wave he hbal.1 (fun _ => (1 : F)) (fun k => x (e.source_port, .opt k)) (fun k => x (e.po_Fr.i, .opt k)) hall' hm
    (fun k hk => hmodes k (Or.inr hk))
  have hsum : wave e' (env.skeys e.rtWpdI) (fun δ => (cs.map (fun c => c.into x (e.rtWpdI, .sig δ))).sum) =
      ((s.1 * A 0 + s.2 * B 0) / 2 / N + (((env.skeys e.rtWpdI).map (fun δ => A δ * e' δ)).sum * s.1
        + ((env.skeys e.rtWpdI).map (fun δ => B δ * e' δ)).sum * s.2) / 2 / N) / 2 := by
    unfold wave
    rw [← List.sum_toFinset _ hbal.1, ← List.sum_toFinset _ hbal.1, ← List.sum_toFinset _ hbal.1]
    have hp : ∀ δ ∈ (env.skeys e.rtWpdI).toFinset,
        (if δ = 0 then (cs.map (fun c => c.into x (e.rtWpdI, .sig δ))).sum
          else (cs.map (fun c => c.into x (e.rtWpdI, .sig δ))).sum * e' δ / 2) =
        (if δ = 0 then (s.1 * A 0 + s.2 * B 0) / 2 / N / 2 else 0) + (A δ * e' δ * s.1 + B δ * e' δ * s.2) / 2 / N / 2 := by
      intro δ hδ
      rw [hv δ (List.mem_toFinset.1 hδ)]
      by_cases hd : δ = 0
      · rw [if_pos hd, if_pos hd, hd, he0]
        field_simp
        ring
      · rw [if_neg hd, if_neg hd]
        ring
    rw [Finset.sum_congr rfl hp, Finset.sum_add_distrib, Finset.sum_ite_eq' (env.skeys e.rtWpdI).toFinset (0 : K),
      if_pos (List.mem_toFinset.2 h0), ← Finset.sum_div, ← Finset.sum_div, ← Finset.sum_div, Finset.sum_add_distrib,
      ← Finset.sum_mul, ← Finset.sum_mul]
    ring
  rw [hsum, hv 0 h0]
  congr 1
  congr 1
  congr 1
  congr 1
  rw [wA, wB, ← List.sum_map_mul_right, ← List.sum_map_mul_right, ← List.sum_map_add]
  congr 1
  apply List.map_congr_left
  intro md _
  ring

/-! ## real signals -/

theorem cross_star {as bs : List (OKey O K)} (ha : ∀ k ∈ as, k.conj ∈ as) (hb : ∀ k ∈ bs, k.conj ∈ bs) {y z : OKey O K → F}
    (hy : ∀ k, y k.conj = star (y k)) (hz : ∀ k, z k.conj = star (z k)) (δ : K) :
    star (cross (fun _ => 1) as y bs z δ) = cross (fun _ => 1) bs z as y (-δ) := by
  unfold cross
  rw [star_sum, Finset.sum_comm (s := bs.toFinset)]
  have ma : ∀ k ∈ as.toFinset, k.conj ∈ as.toFinset := fun k hk => List.mem_toFinset.2 (ha k (List.mem_toFinset.1 hk))
  have mb : ∀ k ∈ bs.toFinset, k.conj ∈ bs.toFinset := fun k hk => List.mem_toFinset.2 (hb k (List.mem_toFinset.1 hk))
  refine Finset.sum_bij' (fun k _ => k.conj) (fun k _ => k.conj) ma ma (fun k _ => k.conj_conj) (fun k _ => k.conj_conj) ?_
  intro a _
  rw [star_sum]
  refine Finset.sum_bij' (fun k _ => k.conj) (fun k _ => k.conj) mb mb (fun k _ => k.conj_conj) (fun k _ => k.conj_conj) ?_
  intro b _
  have hbeat : Beat δ a b ↔ Beat (-δ) b.conj a.conj := by
    obtain ⟨ao, ac, ap, aq⟩ := a
    obtain ⟨bo, bc, bp, bq⟩ := b
    have e1 : (bc = ac + -δ ↔ ac = bc + δ) := ⟨fun h => by rw [h]; abel, fun h => by rw [h]; abel⟩
    cases aq <;> cases bq <;>
      simp only [Beat, OKey.conj, Quantum.conj, reduceCtorEq, and_false, false_and, true_and, e1, eq_comm (a := bo), eq_comm (a := bp)]
  by_cases hab : Beat δ a b
  · rw [if_pos hab, if_pos (hbeat.1 hab), hy, hz]
    simp only [star_mul', star_one]
    ring
  · rw [if_neg hab, if_neg (fun h => hab (hbeat.2 h)), star_zero]

/-- **C136, real signals.**  With conjugate fields, conjugate factors and a real norm the two quadratures are real signals. -/
theorem C136_real (hi : star env.i = -env.i) {e : Homodyne P F} {x : P × Key O K → F} (hf : e.Fits env abs x)
    {cs : List (Coupling P (Key O K) F)} (h : e.setup env abs h_Js = .ok cs)
    (hx : ∀ p k, x (p, .opt { k with q := k.q.conj }) = star (x (p, .opt k)))
    (hs : star (hd_std env abs e.phase_deg).1 = (hd_std env abs e.phase_deg).2)
    (hN : star (env.sqrt (abs (x (e.PWR_tot, .sig 0)) + 1 / 10 ^ 20)) = env.sqrt (abs (x (e.PWR_tot, .sig 0)) + 1 / 10 ^ 20)) (δ : K) :
    (δ ∈ env.skeys e.rtWpdI → (cs.map (fun c => c.into x (e.rtWpdI, .sig (-δ)))).sum
      = star (cs.map (fun c => c.into x (e.rtWpdI, .sig δ))).sum) ∧
    (δ ∈ env.skeys e.rtWpdQ → (cs.map (fun c => c.into x (e.rtWpdQ, .sig (-δ)))).sum
      = star (cs.map (fun c => c.into x (e.rtWpdQ, .sig δ))).sum) := by
  have hs' : star (hd_std env abs e.phase_deg).2 = (hd_std env abs e.phase_deg).1 := by rw [← hs, star_star]
  have hN' : star (env.sqrt (abs (x (sn e.PWR_tot 0)) + 1 / 10 ^ 20)) = env.sqrt (abs (x (sn e.PWR_tot 0)) + 1 / 10 ^ 20) := hN
  have c1 := cross_star (y := fun k => x (e.po_Fr.i, .opt k)) (z := fun k => x (e.source_port, .opt k)) (hf.conj e.po_Fr.i)
    (hf.conj e.source_port) (hx e.po_Fr.i) (hx e.source_port) δ
  have c2 := cross_star (y := fun k => x (e.source_port, .opt k)) (z := fun k => x (e.po_Fr.i, .opt k)) (hf.conj e.source_port)
    (hf.conj e.po_Fr.i) (hx e.source_port) (hx e.po_Fr.i) δ
  constructor
  · intro hδ
    show total cs x (sn e.rtWpdI (-δ)) = star (total cs x (sn e.rtWpdI δ))
    rw [(quad_total hf h rfl rfl).1 hδ, (quad_total hf h c2.symm c1.symm).1 ((hf.balanced _).2 δ hδ)]
    simp only [Signal.star_div_, star_add, star_mul', star_ofNat, hs, hs', hN']
    ring
  · intro hδ
    show total cs x (sn e.rtWpdQ (-δ)) = star (total cs x (sn e.rtWpdQ δ))
    rw [(quad_total hf h rfl rfl).2 hδ, (quad_total hf h c2.symm c1.symm).2 ((hf.balanced _).2 δ hδ)]
    simp only [Signal.star_div_, star_add, star_mul', star_neg, star_ofNat, hs, hs', hN', hi]
    ring

/-! ## the power of the oscillator -/

/-- The sum over both quanta is twice the sum over the lowering keys. -/
theorem lower_sum {ks : List (OKey O K)} (hconj : ∀ k ∈ ks, k.conj ∈ ks) (h2 : (2 : F) ≠ 0) (w : O → F) (y : OKey O K → F) :
    ∑ k ∈ ks.toFinset, 1 / 2 * w k.opt * y k.conj * y k = ∑ k ∈ ks.toFinset, if k.q = .lower then w k.opt * (y k * y k.conj) else 0 := by
  have h3 : ∑ k ∈ ks.toFinset, (if k.q = .raise then w k.opt * (y k * y k.conj) else 0) =
      ∑ k ∈ ks.toFinset, if k.q = .lower then w k.opt * (y k * y k.conj) else 0 := by
    have mb : ∀ k ∈ ks.toFinset, k.conj ∈ ks.toFinset :=
      fun k hk => List.mem_toFinset.2 (hconj k (List.mem_toFinset.1 hk))
    refine Finset.sum_bij' (fun k _ => k.conj) (fun k _ => k.conj) mb mb (fun k _ => k.conj_conj) (fun k _ => k.conj_conj) ?_
    intro k _
    rw [k.conj_conj, mul_comm (y k.conj)]
    obtain ⟨ko, kc, kp, kq⟩ := k
    cases kq <;> rfl
  have h4 : ∑ k ∈ ks.toFinset, 1 / 2 * w k.opt * y k.conj * y k =
      1 / 2 * ((∑ k ∈ ks.toFinset, if k.q = .lower then w k.opt * (y k * y k.conj) else 0) +
      ∑ k ∈ ks.toFinset, if k.q = .raise then w k.opt * (y k * y k.conj) else 0) := by
    rw [← Finset.sum_add_distrib, Finset.mul_sum]
    apply Finset.sum_congr rfl
    intro k _
    cases k.q <;> simp <;> ring
  rw [h4, h3, ← two_mul, ← mul_assoc, one_div, inv_mul_cancel₀ h2, one_mul]

/-- **C136, power.**  The detector of the total power gives the sum of the squares of the fields. -/
theorem C136_power {port WpdDC : P} {q : Option P} (hq : q ≠ some WpdDC) (hn : (env.okeys port).Nodup)
    (hconj : ∀ k ∈ env.okeys port, ({ k with q := k.q.conj } : OKey O K) ∈ env.okeys port) (h2 : (2 : F) ≠ 0) (x : P × Key O K → F) :
    ((total_dc_setup env h_Js port WpdDC q).map (fun c => c.into x (WpdDC, .sig 0))).sum =
      ∑ k ∈ (env.okeys port).toFinset,
        if k.q = .lower then x (port, .opt k) * x (port, .opt { k with q := k.q.conj }) else 0 := by
  have h1 : total (total_dc_setup env h_Js port WpdDC q) x (sn WpdDC 0) =
      ∑ k ∈ (env.okeys port).toFinset, 1 / 2 * 1 * x (on port k.conj) * x (on port k) := by
    unfold total_dc_setup
    rw [total_flatMap, List.sum_toFinset _ hn]
    congr 1
    apply List.map_congr_left
    intro k _
    rw [total_append, total_single, into_multEdge, if_pos rfl]
    cases q with
    | none => simp [total_nil]
    | some q =>
      dsimp only
      rw [total_single, into_multEdge, if_neg]
      · simp
      · intro h
        exact hq (congrArg some (congrArg Prod.fst h))
  refine h1.trans ((lower_sum (ks := env.okeys port) hconj h2 (fun _ => 1) (fun k => x (on port k))).trans ?_)
  simp only [one_mul]
  rfl

/-- **C136, photons.**  The output `QuantaDC` is twice the number of photons per second: the power of each field over half the energy
of a photon. -/
theorem C136_quanta {port WpdDC q : P} (hq : q ≠ WpdDC) (hn : (env.okeys port).Nodup)
    (hconj : ∀ k ∈ env.okeys port, ({ k with q := k.q.conj } : OKey O K) ∈ env.okeys port) (h2 : (2 : F) ≠ 0) (x : P × Key O K → F) :
    ((total_dc_setup env h_Js port WpdDC (some q)).map (fun c => c.into x (q, .sig 0))).sum =
      2 * ∑ k ∈ (env.okeys port).toFinset,
        if k.q = .lower then x (port, .opt k) * x (port, .opt { k with q := k.q.conj }) / (h_Js * env.c_m_s * env.iwavelen_m k.opt) else 0 := by
  have h1 : total (total_dc_setup env h_Js port WpdDC (some q)) x (sn q 0) =
      ∑ k ∈ (env.okeys port).toFinset, 1 / 2 * (2 / (h_Js * env.c_m_s * env.iwavelen_m k.opt)) * x (on port k.conj) * x (on port k) := by
    unfold total_dc_setup
    rw [total_flatMap, List.sum_toFinset _ hn]
    congr 1
    apply List.map_congr_left
    intro k _
    rw [total_append, total_single, into_multEdge, if_neg (fun h => hq (congrArg Prod.fst h).symm), zero_add, total_single,
      into_multEdge, if_pos rfl]
    have : (1 / 2 : F) / (h_Js * env.c_m_s * env.iwavelen_m k.opt / 2) = 1 / 2 * (2 / (h_Js * env.c_m_s * env.iwavelen_m k.opt)) := by
      rw [div_div_eq_mul_div]
      ring
    rw [this]
  refine h1.trans ((lower_sum (ks := env.okeys port) hconj h2 (fun o => 2 / (h_Js * env.c_m_s * env.iwavelen_m o))
    (fun k => x (on port k))).trans ?_)
  rw [Finset.mul_sum]
  apply Finset.sum_congr rfl
  intro k _
  rw [mul_ite, mul_zero]
  refine if_congr Iff.rfl ?_ rfl
  show 2 / (h_Js * env.c_m_s * env.iwavelen_m k.opt) * (x (on port k) * x (on port k.conj)) =
    2 * (x (on port k) * x (on port k.conj) / (h_Js * env.c_m_s * env.iwavelen_m k.opt))
  ring

theorem cross_zero {ks : List (OKey O K)} (hconj : ∀ k ∈ ks, k.conj ∈ ks) (y : OKey O K → F) :
    cross (fun _ => 1) ks y ks y 0 = ∑ k ∈ ks.toFinset, if k.q = .lower then y k * y k.conj else 0 := by
  unfold cross
  apply Finset.sum_congr rfl
  intro a ha
  by_cases hl : a.q = .lower
  · rw [if_pos hl, Finset.sum_eq_single a.conj]
    · obtain ⟨ao, ac, ap, aq⟩ := a
      cases aq
      · rw [if_pos ⟨rfl, rfl, rfl, rfl, (add_zero _).symm⟩, one_mul]
      · cases hl
    · intro b _ hb
      refine if_neg ?_
      rintro ⟨h1, h2, h3, h4, h5⟩
      apply hb
      obtain ⟨ao, ac, ap, aq⟩ := a
      obtain ⟨bo, bc, bp, bq⟩ := b
      dsimp only at h1 h2 h3 h4 h5
      rw [add_zero] at h5
      subst h1 h2 h3 h4 h5
      rfl
    · exact fun h => absurd (List.mem_toFinset.2 (hconj a (List.mem_toFinset.1 ha))) h
  · rw [if_neg hl]
    exact Finset.sum_eq_zero (fun b _ => if_neg (fun h => hl h.1))

/-- **C136, own light.**  With the light at the front as its own oscillator and no phase, the mean of the first quadrature is the power
over the root of the power (and of `10⁻²⁰`), the mean of the second is zero. -/
theorem C136_matched (h2 : (2 : F) ≠ 0) {e : Homodyne P F} {x : P × Key O K → F} (hf : e.Fits env abs x)
    {cs : List (Coupling P (Key O K) F)} (h : e.setup env abs h_Js = .ok cs) (hs : e.source_port = e.po_Fr.i) (hp : e.phase_deg = 0)
    (hI : 0 ∈ env.skeys e.rtWpdI) (hQ : 0 ∈ env.skeys e.rtWpdQ)
    {q : Option P} (hq : q ≠ some e.PWR_tot)
    (hx : x (e.PWR_tot, .sig 0) =
      ((total_dc_setup env h_Js e.source_port e.PWR_tot q).map (fun c => c.into x (e.PWR_tot, .sig 0))).sum) :
    (cs.map (fun c => c.into x (e.rtWpdI, .sig 0))).sum =
      x (e.PWR_tot, .sig 0) / env.sqrt (abs (x (e.PWR_tot, .sig 0)) + 1 / 10 ^ 20) ∧
    (cs.map (fun c => c.into x (e.rtWpdQ, .sig 0))).sum = 0 := by
  have hstd : hd_std env abs e.phase_deg = (1, 1) := by
    unfold hd_std
    rw [if_pos hp]
  have hP : cross (fun _ => 1) (env.okeys e.po_Fr.i) (fun k => x (e.po_Fr.i, .opt k)) (env.okeys e.po_Fr.i)
      (fun k => x (e.po_Fr.i, .opt k)) 0 = x (e.PWR_tot, .sig 0) := by
    rw [hx, C136_power hq (hf.nodup _) (hf.conj _) h2 x, hs]
    exact cross_zero (hf.conj _) _
  have hA : cross (fun _ => 1) (env.okeys e.po_Fr.i) (fun k => x (e.po_Fr.i, .opt k)) (env.okeys e.source_port)
      (fun k => x (e.source_port, .opt k)) 0 = x (e.PWR_tot, .sig 0) := by rw [hs]; exact hP
  have hB : cross (fun _ => 1) (env.okeys e.source_port) (fun k => x (e.source_port, .opt k)) (env.okeys e.po_Fr.i)
      (fun k => x (e.po_Fr.i, .opt k)) 0 = x (e.PWR_tot, .sig 0) := by rw [hs]; exact hP
  constructor
  · refine ((quad_total hf h hA hB).1 hI).trans ?_
    rw [hstd, one_mul, ← two_mul, mul_div_cancel_left₀ _ h2]
  · refine ((quad_total hf h hA hB).2 hQ).trans ?_
    rw [hstd]
    ring

/-! ## the phase -/

/-- **C136, phase.**  The factor of the first quadrature is the exponential of the phase, also where the code writes it out. -/
theorem C136_phase {env : OEnv P O K ℂ} (hi : env.i = Complex.I) (he : env.exp = Complex.exp) (hp : env.i2pi = 2 * Real.pi * Complex.I)
    (φ : ℝ) : hd_std env (fun z => (‖z‖ : ℂ)) (φ : ℂ) =
      (Complex.exp ((φ / 180 * Real.pi : ℝ) * Complex.I), Complex.exp (-((φ / 180 * Real.pi : ℝ) * Complex.I))) := by
  have hn : ∀ (a b : ℝ), ((‖(a : ℂ) + b‖ : ℝ) : ℂ) = 180 ↔ a + b = 180 ∨ a + b = -180 := by
    intro a b
    rw [← Complex.ofReal_add, Complex.norm_real, Real.norm_eq_abs]
    have : ((|a + b| : ℝ) : ℂ) = 180 ↔ |a + b| = 180 := by exact_mod_cast Iff.rfl
    rw [this, abs_eq (by norm_num)]
  have hv : ∀ (c s : ℝ), Real.cos (φ / 180 * Real.pi) = c → Real.sin (φ / 180 * Real.pi) = s →
      (Complex.exp ((φ / 180 * Real.pi : ℝ) * Complex.I), Complex.exp (-((φ / 180 * Real.pi : ℝ) * Complex.I))) =
        ((c : ℂ) + s * Complex.I, (c : ℂ) - s * Complex.I) := by
    rintro c s rfl rfl
    rw [← neg_mul, Complex.exp_mul_I, Complex.exp_mul_I, Complex.cos_neg, Complex.sin_neg, ← Complex.ofReal_cos, ← Complex.ofReal_sin]
    congr 1
    ring
  unfold hd_std
  by_cases h0 : (φ : ℂ) = 0
  · rw [if_pos h0]
    rw [Complex.ofReal_eq_zero] at h0
    rw [hv 1 0 (by rw [h0]; simp) (by rw [h0]; simp)]
    simp
  rw [if_neg h0]
  by_cases h1 : ((‖(φ : ℂ) + 90‖ : ℝ) : ℂ) = 180
  · rw [if_pos h1, hi]
    have h1' := (hn φ 90).1 (by push_cast; exact h1)
    rw [hv 0 1]
    · simp
    · rcases h1' with h | h
      · rw [show φ / 180 * Real.pi = Real.pi / 2 by rw [show φ = 90 by linarith]; ring, Real.cos_pi_div_two]
      · rw [show φ / 180 * Real.pi = Real.pi / 2 - 2 * Real.pi by rw [show φ = -270 by linarith]; ring, Real.cos_sub_two_pi,
          Real.cos_pi_div_two]
    · rcases h1' with h | h
      · rw [show φ / 180 * Real.pi = Real.pi / 2 by rw [show φ = 90 by linarith]; ring, Real.sin_pi_div_two]
      · rw [show φ / 180 * Real.pi = Real.pi / 2 - 2 * Real.pi by rw [show φ = -270 by linarith]; ring, Real.sin_sub_two_pi,
          Real.sin_pi_div_two]
  rw [if_neg h1]
  by_cases h2 : ((‖(φ : ℂ)‖ : ℝ) : ℂ) = 180
  · rw [if_pos h2]
    have h2' := (hn φ 0).1 (by push_cast; rw [add_zero]; exact h2)
    rw [hv (-1) 0]
    · simp
    · rcases h2' with h | h
      · rw [show φ / 180 * Real.pi = Real.pi by rw [show φ = 180 by linarith]; ring, Real.cos_pi]
      · rw [show φ / 180 * Real.pi = -Real.pi by rw [show φ = -180 by linarith]; ring, Real.cos_neg, Real.cos_pi]
    · rcases h2' with h | h
      · rw [show φ / 180 * Real.pi = Real.pi by rw [show φ = 180 by linarith]; ring, Real.sin_pi]
      · rw [show φ / 180 * Real.pi = -Real.pi by rw [show φ = -180 by linarith]; ring, Real.sin_neg, Real.sin_pi, neg_zero]
  rw [if_neg h2]
  by_cases h3 : ((‖(φ : ℂ) - 90‖ : ℝ) : ℂ) = 180
  · rw [if_pos h3, hi]
    have h3' := (hn φ (-90)).1 (by push_cast; rw [← sub_eq_add_neg]; exact h3)
    rw [hv 0 (-1)]
    · simp
    · rcases h3' with h | h
      · rw [show φ / 180 * Real.pi = -(Real.pi / 2) + 2 * Real.pi by rw [show φ = 270 by linarith]; ring, Real.cos_add_two_pi,
          Real.cos_neg, Real.cos_pi_div_two]
      · rw [show φ / 180 * Real.pi = -(Real.pi / 2) by rw [show φ = -90 by linarith]; ring, Real.cos_neg, Real.cos_pi_div_two]
    · rcases h3' with h | h
      · rw [show φ / 180 * Real.pi = -(Real.pi / 2) + 2 * Real.pi by rw [show φ = 270 by linarith]; ring, Real.sin_add_two_pi,
          Real.sin_neg, Real.sin_pi_div_two]
      · rw [show φ / 180 * Real.pi = -(Real.pi / 2) by rw [show φ = -90 by linarith]; ring, Real.sin_neg, Real.sin_pi_div_two]
  rw [if_neg h3, he, hp]
  congr 1
  · congr 1
    push_cast
    ring
  · congr 1
    push_cast
    ring

/-- **C136, rotation.**  The phase turns the two quadratures: those at the phase `φ` are the rotation by `φ` of those at the phase zero. -/
theorem C136_rotate {env : OEnv P O K ℂ} (hi : env.i = Complex.I) (he : env.exp = Complex.exp)
    (hp : env.i2pi = 2 * Real.pi * Complex.I) {h_Js : ℂ} {e : Homodyne P ℂ} {φ : ℝ} (hφ : e.phase_deg = φ) {x : P × Key O K → ℂ}
    (hf : e.Fits env (fun z => (‖z‖ : ℂ)) x) {cs cs₀ : List (Coupling P (Key O K) ℂ)}
    (h : e.setup env (fun z => (‖z‖ : ℂ)) h_Js = .ok cs)
    (h₀ : ({ e with phase_deg := 0 } : Homodyne P ℂ).setup env (fun z => (‖z‖ : ℂ)) h_Js = .ok cs₀) {δ : K}
    (hI : δ ∈ env.skeys e.rtWpdI) (hQ : δ ∈ env.skeys e.rtWpdQ) :
    (cs.map (fun c => c.into x (e.rtWpdI, .sig δ))).sum =
      Real.cos (φ / 180 * Real.pi) * (cs₀.map (fun c => c.into x (e.rtWpdI, .sig δ))).sum
        + Real.sin (φ / 180 * Real.pi) * (cs₀.map (fun c => c.into x (e.rtWpdQ, .sig δ))).sum ∧
    (cs.map (fun c => c.into x (e.rtWpdQ, .sig δ))).sum =
      -Real.sin (φ / 180 * Real.pi) * (cs₀.map (fun c => c.into x (e.rtWpdI, .sig δ))).sum
        + Real.cos (φ / 180 * Real.pi) * (cs₀.map (fun c => c.into x (e.rtWpdQ, .sig δ))).sum := by
  set abs : ℂ → ℂ := fun z => (‖z‖ : ℂ) with habs
  set e₀ : Homodyne P ℂ := { e with phase_deg := 0 } with he₀
  have houts : (e₀.channels env abs).map Channel.out = (e.channels env abs).map Channel.out := by
    obtain ⟨_, _, _, _, _, _, _, _, q, r⟩ := e
    cases q <;> cases r <;> rfl
  have hf₀ : e₀.Fits env abs x := ⟨hf.nodup, hf.conj, hf.accept, hf.zero, hf.balanced, by rw [houts]; exact hf.outs⟩
  have hstd := C136_phase hi he hp φ
  rw [← hφ] at hstd
  have hstd₀ : hd_std env abs e₀.phase_deg = (1, 1) := by
    unfold hd_std
    rw [if_pos rfl]
  have q1 := quad_total hf h (δ := δ) rfl rfl
  have q2 := quad_total hf₀ h₀ (δ := δ) rfl rfl
  show total cs x (sn e.rtWpdI δ) = _ * total cs₀ x (sn e₀.rtWpdI δ) + _ * total cs₀ x (sn e₀.rtWpdQ δ) ∧
    total cs x (sn e.rtWpdQ δ) = _ * total cs₀ x (sn e₀.rtWpdI δ) + _ * total cs₀ x (sn e₀.rtWpdQ δ)
  rw [q1.1 hI, q1.2 hQ, q2.1 hI, q2.2 hQ, hstd₀, hstd, ← neg_mul, Complex.exp_mul_I, Complex.exp_mul_I, Complex.cos_neg, Complex.sin_neg,
    ← Complex.ofReal_cos, ← Complex.ofReal_sin, hi]
  generalize ((Real.cos (φ / 180 * Real.pi) : ℝ) : ℂ) = c
  generalize ((Real.sin (φ / 180 * Real.pi) : ℝ) : ℂ) = s
  dsimp only [he₀]
  generalize cross (fun _ => (1 : ℂ)) (env.okeys e.po_Fr.i) (fun k => x (e.po_Fr.i, .opt k)) (env.okeys e.source_port)
    (fun k => x (e.source_port, .opt k)) δ = A
  generalize cross (fun _ => (1 : ℂ)) (env.okeys e.source_port) (fun k => x (e.source_port, .opt k)) (env.okeys e.po_Fr.i)
    (fun k => x (e.po_Fr.i, .opt k)) δ = B
  generalize env.sqrt _ = N
  have hII : Complex.I ^ 2 = -1 := Complex.I_sq
  constructor
  · ring
  · linear_combination (s * A / 2 / N + s * B / 2 / N) * hII


/-! ## a detector -/

/-- Light at the sidebands of the port 0, an oscillator at the port 4, all outputs. -/
noncomputable def exHd : Homodyne ℕ ℂ :=
  ⟨⟨0, 1⟩, ⟨2, 3⟩, 4, 0, 5, 6, 7, 8, some (9, 10), some (11, 12, 13)⟩

noncomputable def hdenv : OEnv ℕ Unit ℤ ℂ :=
  demo (fun p => if p = 0 ∨ p = 2 ∨ p = 4 then keysAt [-1, 0, 1] else []) (fun p => if 5 ≤ p then [0, 1, -1, 2, -2] else [])
    (fun f => decide (f ∉ [-1, 0, 1]))

noncomputable def hdabs (z : ℂ) : ℂ := (‖z‖ : ℂ)

/-- An oscillator of one watt, two sidebands of half its amplitude. -/
noncomputable def hdfield : ℕ × Key Unit ℤ → ℂ
  | (0, .opt k) => if k.pol = .S ∧ (k.cls = 1 ∨ k.cls = -1) then 1 / 2 else 0
  | (4, .opt k) => if k.pol = .S ∧ k.cls = 0 then 1 else 0
  | (8, .sig 0) => 1
  | _ => 0

theorem exHd_fits : exHd.Fits hdenv hdabs hdfield := by
  have hok : ∀ p, hdenv.okeys p = if p = 0 ∨ p = 2 ∨ p = 4 then keysAt [-1, 0, 1] else [] := fun _ => rfl
  have hsk : ∀ p, hdenv.skeys p = if 5 ≤ p then [0, 1, -1, 2, -2] else [] := fun _ => rfl
  refine ⟨fun p => ?_, fun p k hk => ?_, fun p k hk => ?_, fun p k hk => ?_, fun p => ?_, ?_⟩
  · rw [hok]
    split_ifs
    · decide
    · exact List.nodup_nil
  · rw [hok] at hk ⊢
    split_ifs at hk ⊢
    · exact mem_keysAt.2 (show k.cls ∈ _ from mem_keysAt.1 hk)
    · exact absurd hk List.not_mem_nil
  · rw [hok] at hk
    split_ifs at hk
    · exact decide_eq_false (not_not.2 (mem_keysAt.1 hk))
    · exact absurd hk List.not_mem_nil
  · rw [hok] at hk
    match p with
    | 0 =>
      refine if_neg ?_
      rintro ⟨_, h | h⟩
      · exact hk (mem_keysAt.2 (by rw [h]; decide))
      · exact hk (mem_keysAt.2 (by rw [h]; decide))
    | 1 => rfl
    | 2 => rfl
    | 3 => rfl
    | 4 =>
      refine if_neg ?_
      rintro ⟨_, h⟩
      exact hk (mem_keysAt.2 (by rw [h]; decide))
    | n + 5 => simp [hdfield, on]
  · rw [hsk]
    split_ifs
    · exact ⟨by decide, by decide⟩
    · exact ⟨List.nodup_nil, fun k hk => absurd hk List.not_mem_nil⟩
  · show [7, 5, 6, 9, 10, 11, 12].Nodup
    decide

example : exHd.Fits hdenv hdabs hdfield ∧ (2 : ℂ) ≠ 0 ∧ hdenv.i * hdenv.i = -1 ∧ exHd.po_Fr.o ≠ exHd.po_Bk.o ∧
    exHd.source_port ≠ exHd.po_Fr.i ∧ (1 : ℤ) ∈ hdenv.skeys exHd.rtWpdI ∧ (1 : ℤ) ∈ hdenv.skeys exHd.rtWpdQ ∧
    (1 : ℤ) ∈ hdenv.skeys exHd.rtWpdCmn ∧ (∀ p, Balanced (hdenv.skeys p)) ∧
    (⟨9, 1, 1, [8], true, norm_one hdenv hdabs⟩ : Channel ℕ ℂ) ∈ exHd.channels hdenv hdabs ∧
    (some 14 : Option ℕ) ≠ some exHd.PWR_tot ∧ hdenv.i = Complex.I ∧ hdenv.exp = Complex.exp ∧
    hdenv.i2pi = 2 * Real.pi * Complex.I ∧ exHd.phase_deg = ((0 : ℝ) : ℂ) := by
  refine ⟨exHd_fits, two_ne_zero, Complex.I_mul_I, by decide, by decide, by decide, by decide, by decide, exHd_fits.balanced, ?_,
    by decide, rfl, rfl, rfl, by simp [exHd]⟩
  have : hd_std hdenv hdabs 0 = (1, 1) := if_pos rfl
  simp [Homodyne.channels, this, exHd]

theorem hd_norm_ne : hdenv.sqrt (hdabs (hdfield (8, .sig 0)) + 1 / 10 ^ 20) ≠ 0 := by
  have h1 : hdabs (hdfield (8, .sig 0)) + 1 / 10 ^ 20 = ((1 + 1 / 10 ^ 20 : ℝ) : ℂ) := by
    show ((‖(1 : ℂ)‖ : ℝ) : ℂ) + 1 / 10 ^ 20 = _
    rw [NormOneClass.norm_one]
    push_cast
    rfl
  rw [h1]
  intro h
  have := csqrt_sq (a := 1 + 1 / 10 ^ 20) (by positivity)
  rw [show csqrt ((1 + 1 / 10 ^ 20 : ℝ) : ℂ) = 0 from h, zero_mul] at this
  have h2 : (1 + 1 / 10 ^ 20 : ℝ) = 0 := by exact_mod_cast this.symm
  norm_num at h2

example : (∀ p k, hdfield (p, .opt { k with q := k.q.conj }) = star (hdfield (p, .opt k))) ∧
    star (hd_std hdenv hdabs exHd.phase_deg).1 = (hd_std hdenv hdabs exHd.phase_deg).2 ∧
    star (hdenv.sqrt (hdabs (hdfield (exHd.PWR_tot, .sig 0)) + 1 / 10 ^ 20)) =
      hdenv.sqrt (hdabs (hdfield (exHd.PWR_tot, .sig 0)) + 1 / 10 ^ 20) ∧ star hdenv.i = -hdenv.i := by
  refine ⟨fun p k => ?_, ?_, csqrt_real _, Complex.conj_I⟩
  · match p with
    | 0 =>
      show (if _ then (1 / 2 : ℂ) else 0) = star (if _ then (1 / 2 : ℂ) else 0)
      split_ifs <;> simp
    | 1 => simp [hdfield]
    | 2 => simp [hdfield]
    | 3 => simp [hdfield]
    | 4 =>
      show (if _ then (1 : ℂ) else 0) = star (if _ then (1 : ℂ) else 0)
      split_ifs <;> simp
    | n + 5 => simp [hdfield]
  · rw [show hd_std hdenv hdabs exHd.phase_deg = (1, 1) from if_pos rfl]
    exact star_one _

/-- **C136, half the modulation (refuted).**  The signal of the first quadrature is not the product of the light and the oscillator: with
a modulation of the front light the detector gives half of it. -/
theorem C136_half_refuted : ∃ (e : Homodyne ℕ ℂ) (env : OEnv ℕ Unit ℤ ℂ) (x : ℕ × Key Unit ℤ → ℂ) (cs : List (Coupling ℕ (Key Unit ℤ) ℂ)),
    e.Fits env hdabs x ∧ e.setup env hdabs 1 = .ok cs ∧ e.phase_deg = 0 ∧
    (∀ a ∈ env.okeys e.po_Fr.i, ∀ b ∈ env.okeys e.source_port, a.opt = b.opt → a.pol = b.pol → a.cls - b.cls ∈ env.skeys e.rtWpdI) ∧
    (∀ k, k ∈ env.okeys e.po_Fr.i ∨ k ∈ env.okeys e.source_port → (k.opt, k.pol) ∈ [((), Pol.S), ((), Pol.P)]) ∧
    wave (fun _ => 1) (env.skeys e.rtWpdI) (fun δ => (cs.map (fun c => c.into x (e.rtWpdI, .sig δ))).sum) ≠
      ([((), Pol.S), ((), Pol.P)].map (fun md =>
        light (fun _ => 1) (env.okeys e.po_Fr.i) (fun k => x (e.po_Fr.i, .opt k)) md .lower *
          light (fun _ => 1) (env.okeys e.source_port) (fun k => x (e.source_port, .opt k)) md .raise
        + light (fun _ => 1) (env.okeys e.source_port) (fun k => x (e.source_port, .opt k)) md .lower *
          light (fun _ => 1) (env.okeys e.po_Fr.i) (fun k => x (e.po_Fr.i, .opt k)) md .raise)).sum / 2
        / env.sqrt (hdabs (x (e.PWR_tot, .sig 0)) + 1 / 10 ^ 20) := by
  obtain ⟨cs, hcs⟩ := C136_ok (env := hdenv) (abs := hdabs) (h_Js := 1) (e := exHd) exHd_fits.balanced
  have hstd : hd_std hdenv hdabs exHd.phase_deg = (1, 1) := if_pos rfl
  have hall : ∀ a ∈ hdenv.okeys exHd.po_Fr.i, ∀ b ∈ hdenv.okeys exHd.source_port, a.opt = b.opt → a.pol = b.pol →
      a.cls - b.cls ∈ hdenv.skeys exHd.rtWpdI := by
    intro a ha b hb _ _
    have h1 : a.cls ∈ [-1, 0, 1] := mem_keysAt.1 ha
    have h2 : b.cls ∈ [-1, 0, 1] := mem_keysAt.1 hb
    show a.cls - b.cls ∈ [0, 1, -1, 2, -2]
    generalize a.cls = u at h1
    generalize b.cls = v at h2
    revert u v
    decide
  have hmodes : ∀ k, k ∈ hdenv.okeys exHd.po_Fr.i ∨ k ∈ hdenv.okeys exHd.source_port → (k.opt, k.pol) ∈ [((), Pol.S), ((), Pol.P)] := by
    intro k _
    obtain ⟨⟨⟩, c, p, q⟩ := k
    cases p
    · exact List.mem_cons_self
    · exact List.mem_cons_of_mem _ List.mem_cons_self
  refine ⟨exHd, hdenv, hdfield, cs, exHd_fits, hcs, rfl, hall, hmodes, ?_⟩
  rw [C136_wave_partial (e' := fun _ => 1) (fun _ _ => (one_mul 1).symm) rfl two_ne_zero exHd_fits hcs (by decide) hall
    (modes := [((), Pol.S), ((), Pol.P)]) (by decide) hmodes, hstd]
  have hkeys : (keysAt [-1, 0, 1]).Nodup := by decide
  have hL : ∀ (p : ℕ) (q : Quantum) (pol : Pol), light (fun _ => (1 : ℂ)) (keysAt [-1, 0, 1]) (fun k => hdfield (p, .opt k)) ((), pol) q =
      hdfield (p, .opt ⟨(), -1, pol, q⟩) + hdfield (p, .opt ⟨(), 0, pol, q⟩) + hdfield (p, .opt ⟨(), 1, pol, q⟩) := by
    intro p q pol
    unfold light
    rw [List.sum_toFinset _ hkeys]
    cases q <;> cases pol <;> simp [keysAt] <;> ring
  have hzero : (cs.map (fun c => c.into hdfield (exHd.rtWpdI, .sig 0))).sum = 0 := by
    have hterm : ∀ a b : OKey Unit ℤ, Beat 0 a b → hdfield (0, .opt a) * hdfield (4, .opt b) = 0 := by
      rintro a b ⟨_, _, _, _, h⟩
      show (if a.pol = .S ∧ (a.cls = 1 ∨ a.cls = -1) then (1 / 2 : ℂ) else 0) * (if b.pol = .S ∧ b.cls = 0 then 1 else 0) = 0
      by_cases hb : b.cls = 0
      · rw [if_neg, zero_mul]
        rintro ⟨_, h' | h'⟩ <;> omega
      · rw [if_neg (c := b.pol = .S ∧ b.cls = 0) (fun h' => hb h'.2), mul_zero]
    have hterm' : ∀ a b : OKey Unit ℤ, Beat 0 a b → hdfield (4, .opt a) * hdfield (0, .opt b) = 0 := by
      rintro a b ⟨_, _, _, _, h⟩
      show (if a.pol = .S ∧ a.cls = 0 then (1 : ℂ) else 0) * (if b.pol = .S ∧ (b.cls = 1 ∨ b.cls = -1) then 1 / 2 else 0) = 0
      by_cases hb : a.cls = 0
      · rw [if_neg (c := b.pol = .S ∧ (b.cls = 1 ∨ b.cls = -1)), mul_zero]
        rintro ⟨_, h' | h'⟩ <;> omega
      · rw [if_neg (fun h' => hb h'.2), zero_mul]
    have hA : cross (fun _ => 1) (hdenv.okeys exHd.po_Fr.i) (fun k => hdfield (exHd.po_Fr.i, .opt k)) (hdenv.okeys exHd.source_port)
        (fun k => hdfield (exHd.source_port, .opt k)) 0 = 0 := by
      refine Finset.sum_eq_zero (fun a _ => Finset.sum_eq_zero (fun b _ => ?_))
      split_ifs with h
      · exact (congrArg _ (hterm a b h)).trans (mul_zero _)
      · rfl
    have hB : cross (fun _ => 1) (hdenv.okeys exHd.source_port) (fun k => hdfield (exHd.source_port, .opt k)) (hdenv.okeys exHd.po_Fr.i)
        (fun k => hdfield (exHd.po_Fr.i, .opt k)) 0 = 0 := by
      refine Finset.sum_eq_zero (fun a _ => Finset.sum_eq_zero (fun b _ => ?_))
      split_ifs with h
      · exact (congrArg _ (hterm' a b h)).trans (mul_zero _)
      · rfl
    refine ((quad_total exHd_fits hcs hA hB).1 (by decide)).trans ?_
    ring
  rw [hzero]
  have hN := hd_norm_ne
  show (0 + _ / 2 / hdenv.sqrt (hdabs (hdfield (8, .sig 0)) + 1 / 10 ^ 20)) / 2 ≠ _ / 2 / hdenv.sqrt (hdabs (hdfield (8, .sig 0)) + 1 / 10 ^ 20)
  generalize hdenv.sqrt (hdabs (hdfield (8, .sig 0)) + 1 / 10 ^ 20) = N at hN
  have hv : ∀ q, light (fun _ => (1 : ℂ)) (hdenv.okeys exHd.po_Fr.i) (fun k => hdfield (exHd.po_Fr.i, .opt k)) ((), .S) q = 1 ∧
      light (fun _ => (1 : ℂ)) (hdenv.okeys exHd.source_port) (fun k => hdfield (exHd.source_port, .opt k)) ((), .S) q = 1 ∧
      light (fun _ => (1 : ℂ)) (hdenv.okeys exHd.po_Fr.i) (fun k => hdfield (exHd.po_Fr.i, .opt k)) ((), .P) q = 0 := by
    intro q
    refine ⟨(hL 0 q .S).trans ?_, (hL 4 q .S).trans ?_, (hL 0 q .P).trans ?_⟩
    · simp [hdfield]; norm_num
    · simp [hdfield]
    · simp [hdfield]
  simp only [List.map_cons, List.map_nil, List.sum_cons, List.sum_nil, (hv _).1, (hv _).2.1, (hv _).2.2]
  intro h
  field_simp at h
  norm_num at h

/-- The sidebands of the port 0 and their power. -/
noncomputable def hdown : ℕ × Key Unit ℤ → ℂ
  | (0, .opt k) => if k.pol = .S ∧ (k.cls = 1 ∨ k.cls = -1) then 1 / 2 else 0
  | (8, .sig 0) => 1 / 2
  | _ => 0

example : ∃ e : Homodyne ℕ ℂ, e.Fits hdenv hdabs hdown ∧ e.source_port = e.po_Fr.i ∧ e.phase_deg = 0 ∧ 0 ∈ hdenv.skeys e.rtWpdI ∧
    0 ∈ hdenv.skeys e.rtWpdQ ∧ (none : Option ℕ) ≠ some e.PWR_tot ∧ hdown (e.PWR_tot, .sig 0) =
      ((total_dc_setup hdenv 1 e.source_port e.PWR_tot none).map (fun c => c.into hdown (e.PWR_tot, .sig 0))).sum ∧
    hdown (e.PWR_tot, .sig 0) ≠ 0 := by
  have hfit : ({ exHd with source_port := 0 } : Homodyne ℕ ℂ).Fits hdenv hdabs hdown := by
    refine ⟨exHd_fits.nodup, exHd_fits.conj, exHd_fits.accept, fun p k hk => ?_, exHd_fits.balanced, exHd_fits.outs⟩
    have h := exHd_fits.zero p k hk
    match p with
    | 0 => exact h
    | 1 => rfl
    | 2 => rfl
    | 3 => rfl
    | 4 => rfl
    | n + 5 => simp [hdown, on]
  refine ⟨{ exHd with source_port := 0 }, hfit, rfl, rfl, by decide, by decide, by decide, ?_, ?_⟩
  · rw [C136_power (by decide) (hfit.nodup _) (hfit.conj _) two_ne_zero]
    show (1 / 2 : ℂ) = ∑ k ∈ (keysAt [-1, 0, 1]).toFinset, if k.q = .lower then hdown (0, .opt k) * hdown (0, .opt k.conj) else 0
    rw [List.sum_toFinset _ (by decide : (keysAt [-1, 0, 1]).Nodup)]
    simp [keysAt, hdown, OKey.conj, Quantum.conj]
    norm_num
  · show (1 / 2 : ℂ) ≠ 0
    norm_num

end Optics
