import Verif.Inject.SparsityProps
import Verif.Inject.Props
import Verif.Inject.Iterate
import Verif.Graph.Props

set_option linter.unusedSectionVars false

namespace Inject
open Py

variable {P K F : Type} [DecidableEq P] [DecidableEq K] [Field F] [DecidableEq F]

/-! ## what the insertion leaves in the lists -/

theorem insert_edges_lst (i : Inj P K F) (l : List (((P × K) × (P × K)) × Func P K F))
    {m m' : Algo P K F} (h : l.foldlM (insert_edge i) m = .ok m') :
    (∀ e, lst m'.edgeInj e = lst m.edgeInj e ++ (l.filter (fun ef => ef.1 = e)).map (fun _ => i)) ∧
    (∀ e, lst m'.edgeFunc e = lst m.edgeFunc e ++ (l.filter (fun ef => ef.1 = e)).map (fun ef => ef.2)) ∧
    m'.srcInj = m.srcInj ∧ m'.srcFunc = m.srcFunc ∧
    (Dict.WF m.edgeInj → Dict.WF m'.edgeInj) := by
  induction l generalizing m with
  | nil =>
    cases foldlM_nil_ok h
    simp
  | cons ef l ih =>
    obtain ⟨m1, h1, h2⟩ := foldlM_cons_ok h
    have hm1 := insert_edge_ok h1
    obtain ⟨a1, a2, a3, a4, a5⟩ := ih h2
    subst hm1
    dsimp only at a1 a2 a3 a4 a5
    refine ⟨?_, ?_, a3, a4, fun hw => a5 (WF_push hw _ _)⟩
    · intro e
      rw [a1, lst_push, List.filter_cons]
      by_cases he : ef.1 = e <;> simp [he]
    · intro e
      rw [a2, lst_push, List.filter_cons]
      by_cases he : ef.1 = e <;> simp [he]

theorem insert_sources_lst (i : Inj P K F) (l : List ((P × K) × Func P K F))
    {m m' : Algo P K F} (h : l.foldlM (insert_source i) m = .ok m') :
    (∀ e, lst m'.srcInj e = lst m.srcInj e ++ (l.filter (fun ef => ef.1 = e)).map (fun _ => i)) ∧
    (∀ e, lst m'.srcFunc e = lst m.srcFunc e ++ (l.filter (fun ef => ef.1 = e)).map (fun ef => ef.2)) ∧
    m'.edgeInj = m.edgeInj ∧ m'.edgeFunc = m.edgeFunc ∧
    (Dict.WF m.srcInj → Dict.WF m'.srcInj) := by
  induction l generalizing m with
  | nil =>
    cases foldlM_nil_ok h
    simp
  | cons ef l ih =>
    obtain ⟨m1, h1, h2⟩ := foldlM_cons_ok h
    have hm1 := insert_source_ok h1
    obtain ⟨a1, a2, a3, a4, a5⟩ := ih h2
    subst hm1
    dsimp only at a1 a2 a3 a4 a5
    refine ⟨?_, ?_, a3, a4, fun hw => a5 (WF_push hw _ _)⟩
    · intro e
      rw [a1, lst_push, List.filter_cons]
      by_cases he : ef.1 = e <;> simp [he]
    · intro e
      rw [a2, lst_push, List.filter_cons]
      by_cases he : ef.1 = e <;> simp [he]

/-- the lists after a number of insertions -/
structure Lists (injs : List (Inj P K F)) (m m' : Algo P K F) : Prop where
  edgeInj : ∀ e, lst m'.edgeInj e = lst m.edgeInj e ++
    injs.flatMap (fun i => (i.edges.filter (fun ef => ef.1 = e)).map (fun _ => i))
  edgeFunc : ∀ e, lst m'.edgeFunc e = lst m.edgeFunc e ++
    injs.flatMap (fun i => (i.edges.filter (fun ef => ef.1 = e)).map (fun ef => ef.2))
  srcInj : ∀ e, lst m'.srcInj e = lst m.srcInj e ++
    injs.flatMap (fun i => (i.sources.filter (fun ef => ef.1 = e)).map (fun _ => i))
  srcFunc : ∀ e, lst m'.srcFunc e = lst m.srcFunc e ++
    injs.flatMap (fun i => (i.sources.filter (fun ef => ef.1 = e)).map (fun ef => ef.2))
  wfe : Dict.WF m.edgeInj → Dict.WF m'.edgeInj
  wfs : Dict.WF m.srcInj → Dict.WF m'.srcInj

theorem insert_lists (injs : List (Inj P K F)) {m m' : Algo P K F}
    (h : injs.foldlM injection_insert m = .ok m') : Lists injs m m' := by
  induction injs generalizing m with
  | nil =>
    cases foldlM_nil_ok h
    constructor <;> simp
  | cons i injs ih =>
    obtain ⟨m2, h1, h2⟩ := foldlM_cons_ok h
    have ih' := ih h2
    unfold injection_insert at h1
    obtain ⟨m1, h1, h3⟩ := bind_ok_inv h1
    obtain ⟨a1, a2, a3, a4, a5⟩ := insert_edges_lst i _ h1
    obtain ⟨b1, b2, b3, b4, b5⟩ := insert_sources_lst i _ h3
    refine ⟨?_, ?_, ?_, ?_, ?_, ?_⟩
    · intro e
      rw [ih'.edgeInj, b3, a1, List.flatMap_cons, List.append_assoc]
    · intro e
      rw [ih'.edgeFunc, b4, a2, List.flatMap_cons, List.append_assoc]
    · intro e
      rw [ih'.srcInj, b1, a3, List.flatMap_cons, List.append_assoc]
    · intro e
      rw [ih'.srcFunc, b2, a4, List.flatMap_cons, List.append_assoc]
    · intro hw
      apply ih'.wfe
      rw [b3]
      exact a5 hw
    · intro hw
      apply ih'.wfs
      exact b5 (a3 ▸ hw)

section
variable {cs : List (Coupling P K F)} {ports : Dict P (List K)} {m : Algo P K F}

theorem mem_edgeInj (hm : insert_all ports (cs.map Coupling.inj) = .ok m) {c : Coupling P K F} (hc : c ∈ cs)
    {e : (P × K) × (P × K)} {f : Func P K F} (hf : (e, f) ∈ c.inj.edges) : c.inj ∈ lst m.edgeInj e := by
  rw [(insert_lists _ hm).edgeInj]
  refine List.mem_append_right _ (List.mem_flatMap.2 ⟨c.inj, List.mem_map_of_mem hc, ?_⟩)
  exact List.mem_map.2 ⟨(e, f), List.mem_filter.2 ⟨hf, by simp⟩, rfl⟩

theorem mem_srcInj (hm : insert_all ports (cs.map Coupling.inj) = .ok m) {c : Coupling P K F} (hc : c ∈ cs)
    {e : P × K} {f : Func P K F} (hf : (e, f) ∈ c.inj.sources) : c.inj ∈ lst m.srcInj e := by
  rw [(insert_lists _ hm).srcInj]
  refine List.mem_append_right _ (List.mem_flatMap.2 ⟨c.inj, List.mem_map_of_mem hc, ?_⟩)
  exact List.mem_map.2 ⟨(e, f), List.mem_filter.2 ⟨hf, by simp⟩, rfl⟩

theorem of_edgeFunc (hm : insert_all ports (cs.map Coupling.inj) = .ok m) {e : (P × K) × (P × K)}
    {f : Func P K F} (hf : f ∈ lst m.edgeFunc e) : ∃ c ∈ cs, (e, f) ∈ c.inj.edges := by
  rw [(insert_lists _ hm).edgeFunc] at hf
  replace hf := (List.mem_append.1 hf).resolve_left (by simp [lst])
  obtain ⟨i, hi, hf⟩ := List.mem_flatMap.1 hf
  obtain ⟨c, hc, rfl⟩ := List.mem_map.1 hi
  obtain ⟨⟨e', f'⟩, hm', rfl⟩ := List.mem_map.1 hf
  rw [List.mem_filter] at hm'
  have : e' = e := by simpa using hm'.2
  subst this
  exact ⟨c, hc, hm'.1⟩

theorem of_srcFunc (hm : insert_all ports (cs.map Coupling.inj) = .ok m) {e : P × K}
    {f : Func P K F} (hf : f ∈ lst m.srcFunc e) : ∃ c ∈ cs, (e, f) ∈ c.inj.sources := by
  rw [(insert_lists _ hm).srcFunc] at hf
  replace hf := (List.mem_append.1 hf).resolve_left (by simp [lst])
  obtain ⟨i, hi, hf⟩ := List.mem_flatMap.1 hf
  obtain ⟨c, hc, rfl⟩ := List.mem_map.1 hi
  obtain ⟨⟨e', f'⟩, hm', rfl⟩ := List.mem_map.1 hf
  rw [List.mem_filter] at hm'
  have : e' = e := by simpa using hm'.2
  subst this
  exact ⟨c, hc, hm'.1⟩

end

/-! ## the rules -/

theorem mapM_ok {A B : Type} {f : A → Except Err B} {l : List A} {r : List B} (h : l.mapM f = .ok r) (b : B) :
    b ∈ r ↔ ∃ a ∈ l, f a = .ok b := by
  induction l generalizing r with
  | nil =>
    rw [List.mapM_nil] at h
    injection h with h
    subst h
    simp
  | cons a l ih =>
    rw [List.mapM_cons] at h
    obtain ⟨b', hb', h⟩ := bind_ok_inv h
    obtain ⟨r', hr', h⟩ := bind_ok_inv h
    injection h with h
    subst h
    rw [List.mem_cons, ih hr']
    simp only [List.mem_cons, exists_eq_or_imp, hb', Except.ok.injEq]
    apply or_congr_left
    exact eq_comm

theorem rules_ok {κ : Type} [DecidableEq κ] {rule : κ → Inj P K F → Except Err (Rule (P × K))}
    {d : Dict κ (List (Inj P K F))} {d' : Dict κ (List (Rule (P × K)))} (h : rules rule d = .ok d') :
    Dict.keys d' = Dict.keys d ∧
    ∀ k r, HasRule d' k r ↔ ∃ i ∈ lst d k, rule k i = .ok r := by
  induction d generalizing d' with
  | nil =>
    injection h with h
    subst h
    exact ⟨rfl, by simp [HasRule, lst]⟩
  | cons kv d ih =>
    obtain ⟨k0, is⟩ := kv
    unfold rules at h
    obtain ⟨rs, hrs, h⟩ := bind_ok_inv h
    obtain ⟨d1, hd1, h⟩ := bind_ok_inv h
    injection h with h
    subst h
    obtain ⟨h1, h2⟩ := ih hd1
    constructor
    · unfold Dict.keys at h1 ⊢
      rw [List.map_cons, List.map_cons, h1]
    · intro k r
      have h2' := h2 k r
      unfold HasRule lst at h2' ⊢
      rw [Dict.get?_cons, Dict.get?_cons]
      by_cases hk : k0 = k
      · subst hk
        rw [if_pos rfl, if_pos rfl]
        exact mapM_ok hrs r
      · rw [if_neg hk, if_neg hk]
        exact h2'

/-! ## an idle function is zero -/

theorem mult_zero {sol : SolVec P K F} {c : F} {l : List (P × K)} {z : P × K} (hz : z ∈ l)
    (h0 : getd sol z 0 = 0) : evalD sol (mult_func c l) = 0 := by
  unfold evalD mult_func
  dsimp only
  have key : ∀ (l : List (P × K)) (c : F), (c = 0 ∨ ∃ z ∈ l, getd sol z 0 = 0) →
      l.foldl (fun val pksrc => val * getd sol pksrc 0) c = 0 := by
    intro l
    induction l with
    | nil =>
      rintro c (h | ⟨_, h, _⟩)
      · exact h
      · simp at h
    | cons a l ih =>
      rintro c h
      rw [List.foldl_cons]
      apply ih
      rcases h with rfl | ⟨y, hy, hy0⟩
      · left; rw [zero_mul]
      · rcases List.mem_cons.1 hy with rfl | hy
        · left; rw [hy0, mul_zero]
        · exact Or.inr ⟨y, hy, hy0⟩
  exact key l c (Or.inr ⟨z, hz, h0⟩)

theorem evalD_pdiv_zero (sol : SolVec P K F) (f : Func P K F) (b : F) (h : f sol = pdiv 0 b) :
    evalD sol f = 0 := by
  unfold evalD
  rw [h]
  unfold pdiv
  split
  · rename_i v hv
    split at hv
    · cases hv
    · injection hv with hv
      rw [← hv, zero_div]
  · rfl

theorem ofList_two {A B : Type} [DecidableEq A] {a b : A} (h : a ≠ b) (u v : B) :
    Dict.ofList [(a, u), (b, v)] = [(a, u), (b, v)] := by
  simp [Dict.ofList, Dict.update, Dict.set, h]

theorem ofList_one {A B : Type} [DecidableEq A] (a : A) (u : B) : Dict.ofList [(a, u)] = [(a, u)] := by
  simp [Dict.ofList, Dict.update, Dict.set]

theorem get_head {A B : Type} [DecidableEq A] (a : A) (u : B) (d : Dict A B) :
    Dict.get ((a, u) :: d) a = .ok u := by
  unfold Dict.get
  rw [Dict.get?_cons, if_pos rfl]

theorem get_second {A B : Type} [DecidableEq A] {a b : A} (h : a ≠ b) (u v : B) (d : Dict A B) :
    Dict.get ((a, u) :: (b, v) :: d) b = .ok v := by
  unfold Dict.get
  rw [Dict.get?_cons, if_neg h, Dict.get?_cons, if_pos rfl]

/-- An edge function of a coupling has a rule, and the function is zero when a node of its `NZ` set is. -/
theorem edge_idle (c : Coupling P K F) {e : (P × K) × (P × K)} {f : Func P K F} (hf : (e, f) ∈ c.inj.edges) :
    ∃ r, edge_rule e c.inj = .ok r ∧
      ∀ sol : SolVec P K F, ∀ z ∈ r.nz, getd sol z 0 = 0 → evalD sol f = 0 := by
  have one : ∀ (i : Inj P K F) (e0 : (P × K) × (P × K)) (f0 : Func P K F) (nz req : List (P × K)),
      i.edges = [(e0, f0)] → i.edgesNZ = [(e0, nz)] → i.edgesReq = [(e0, req)] → (e, f) ∈ i.edges →
      (∀ sol : SolVec P K F, ∀ z ∈ nz, getd sol z 0 = 0 → evalD sol f0 = 0) →
      ∃ r, edge_rule e i = .ok r ∧ ∀ sol : SolVec P K F, ∀ z ∈ r.nz, getd sol z 0 = 0 → evalD sol f = 0 := by
    intro i e0 f0 nz req h1 h2 h3 hm hz
    rw [h1, List.mem_singleton] at hm
    cases hm
    refine ⟨⟨nz, req⟩, ?_, hz⟩
    unfold edge_rule
    rw [h2, h3, get_head, get_head]
    rfl
  have two : ∀ (i : Inj P K F) (e0 e1 : (P × K) × (P × K)) (f0 f1 : Func P K F) (nz req nz' req' : List (P × K)),
      e0 ≠ e1 → i.edges = [(e0, f0), (e1, f1)] → i.edgesNZ = [(e0, nz), (e1, nz')] →
      i.edgesReq = [(e0, req), (e1, req')] → (e, f) ∈ i.edges →
      (∀ sol : SolVec P K F, ∀ z ∈ nz, getd sol z 0 = 0 → evalD sol f0 = 0) →
      (∀ sol : SolVec P K F, ∀ z ∈ nz', getd sol z 0 = 0 → evalD sol f1 = 0) →
      ∃ r, edge_rule e i = .ok r ∧ ∀ sol : SolVec P K F, ∀ z ∈ r.nz, getd sol z 0 = 0 → evalD sol f = 0 := by
    intro i e0 e1 f0 f1 nz req nz' req' hne h1 h2 h3 hm hz hz'
    rw [h1, List.mem_cons, List.mem_singleton] at hm
    rcases hm with hm | hm
    · cases hm
      refine ⟨⟨nz, req⟩, ?_, hz⟩
      unfold edge_rule
      rw [h2, h3, get_head, get_head]
      rfl
    · cases hm
      refine ⟨⟨nz', req'⟩, ?_, hz'⟩
      unfold edge_rule
      rw [h2, h3, get_second hne, get_second hne]
      rfl
  have noneE : ∀ i : Inj P K F, i.edges = [] → (e, f) ∈ i.edges → False := by
    intro i h hm
    rw [h] at hm
    simp at hm
  cases c with
  | edge a t c => exact one _ _ _ _ _ (ofList_one _ _) (ofList_one _ _) (ofList_one _ _) hf (by simp)
  | source t c => exact (noneE _ rfl hf).elim
  | multEdge a t c l =>
    refine one _ _ _ _ _ (ofList_one _ _) (ofList_one _ _) (ofList_one _ _) hf ?_
    intro sol z hz h0
    exact mult_zero ((mem_frozenset _ _).1 hz) h0
  | multSource t c l => exact (noneE _ rfl hf).elim
  | triplet p q t c =>
    have hz : ∀ a : P × K, ∀ sol : SolVec P K F, ∀ z ∈ [a], getd sol z 0 = 0 → evalD sol (triplet_edge c a) = 0 := by
      intro a sol z hz h0
      rw [List.mem_singleton] at hz
      subst hz
      simp [evalD, triplet_edge, h0]
    by_cases h : p = q
    · subst h
      have hi : (Coupling.triplet p p t c).inj = ⟨[((p, t), triplet_edge c p)], [((p, t), [p])], [((p, t), [p])], [], [], []⟩ := by
        dsimp only [Coupling.inj, TripletCoupling]
        rw [if_neg (by simp)]
        rfl
      rw [hi] at hf ⊢
      exact one _ _ _ _ _ rfl rfl rfl hf (hz p)
    · have hne : (p, t) ≠ (q, t) := fun hh => h (congrArg Prod.fst hh)
      have hi : (Coupling.triplet p q t c).inj = ⟨[((p, t), triplet_edge c q), ((q, t), triplet_edge c p)],
          [((p, t), [q]), ((q, t), [p])], [((p, t), [q]), ((q, t), [p])],
          [(t, triplet_source c p q)], [(t, frozenset [p, q])], [(t, frozenset [p, q])]⟩ := by
        dsimp only [Coupling.inj, TripletCoupling]
        rw [if_pos h, ofList_two hne, ofList_two hne, ofList_one, ofList_one]
      rw [hi] at hf ⊢
      exact two _ _ _ _ _ _ _ _ _ hne rfl rfl rfl hf (hz q) (hz p)
  | tripletNorm p q t n c N =>
    have hz : ∀ a : P × K, ∀ sol : SolVec P K F, ∀ z ∈ [a], getd sol z 0 = 0 → evalD sol (norm_edge c a n N) = 0 := by
      intro a sol z hz h0
      rw [List.mem_singleton] at hz
      subst hz
      refine evalD_pdiv_zero sol _ (N (getd sol n (10 ^ 12))) ?_
      unfold norm_edge
      rw [h0, mul_zero]
    by_cases h : p = q
    · subst h
      have hi : (Coupling.tripletNorm p p t n c N).inj = ⟨[((p, t), norm_edge c p n N)], [((p, t), [p])],
          [((p, t), frozenset [p, n])], [], [], []⟩ := by
        dsimp only [Coupling.inj, TripletNormCoupling]
        rw [if_neg (by simp)]
        rfl
      rw [hi] at hf ⊢
      exact one _ _ _ _ _ rfl rfl rfl hf (hz p)
    · have hne : (p, t) ≠ (q, t) := fun hh => h (congrArg Prod.fst hh)
      have hi : (Coupling.tripletNorm p q t n c N).inj = ⟨[((p, t), norm_edge c q n N), ((q, t), norm_edge c p n N)],
          [((p, t), [q]), ((q, t), [p])], [((p, t), frozenset [q, n]), ((q, t), frozenset [p, n])],
          [(t, norm_source c p q n N)], [(t, frozenset [p, q])], [(t, frozenset [p, q, n])]⟩ := by
        dsimp only [Coupling.inj, TripletNormCoupling]
        rw [if_pos h, ofList_two hne, ofList_two hne, ofList_two hne, ofList_one, ofList_one, ofList_one]
      rw [hi] at hf ⊢
      exact two _ _ _ _ _ _ _ _ _ hne rfl rfl rfl hf (hz q) (hz p)
  | tripletNorms p q t ns c N =>
    have hz : ∀ a : P × K, ∀ sol : SolVec P K F, ∀ z ∈ [a], getd sol z 0 = 0 → evalD sol (norms_edge c a ns N) = 0 := by
      intro a sol z hz h0
      rw [List.mem_singleton] at hz
      subst hz
      refine evalD_pdiv_zero sol _ (N (ns.map (fun n => getd sol n (10 ^ 12)))) ?_
      unfold norms_edge
      dsimp only
      rw [h0, mul_zero]
    by_cases h : p = q
    · subst h
      have hi : (Coupling.tripletNorms p p t ns c N).inj = ⟨[((p, t), norms_edge c p ns N)], [((p, t), [p])],
          [((p, t), frozenset ([p] ++ ns))], [], [], []⟩ := by
        dsimp only [Coupling.inj, TripletNormsCoupling]
        rw [if_neg (by simp)]
        rfl
      rw [hi] at hf ⊢
      exact one _ _ _ _ _ rfl rfl rfl hf (hz p)
    · have hne : (p, t) ≠ (q, t) := fun hh => h (congrArg Prod.fst hh)
      have hi : (Coupling.tripletNorms p q t ns c N).inj = ⟨[((p, t), norms_edge c q ns N), ((q, t), norms_edge c p ns N)],
          [((p, t), [q]), ((q, t), [p])], [((p, t), frozenset ([q] ++ ns)), ((q, t), frozenset ([p] ++ ns))],
          [(t, norms_source c p q ns N)], [(t, frozenset [p, q])], [(t, frozenset ([p, q] ++ ns))]⟩ := by
        dsimp only [Coupling.inj, TripletNormsCoupling]
        rw [if_pos h, ofList_two hne, ofList_two hne, ofList_two hne, ofList_one, ofList_one, ofList_one]
      rw [hi] at hf ⊢
      exact two _ _ _ _ _ _ _ _ _ hne rfl rfl rfl hf (hz q) (hz p)

/-- Likewise for the sources. -/
theorem source_idle (c : Coupling P K F) {e : P × K} {f : Func P K F} (hf : (e, f) ∈ c.inj.sources) :
    ∃ r, source_rule e c.inj = .ok r ∧
      ∀ sol : SolVec P K F, ∀ z ∈ r.nz, getd sol z 0 = 0 → evalD sol f = 0 := by
  have one : ∀ (i : Inj P K F) (e0 : P × K) (f0 : Func P K F) (nz req : List (P × K)),
      i.sources = [(e0, f0)] → i.sourcesNZ = [(e0, nz)] → i.sourcesReq = [(e0, req)] → (e, f) ∈ i.sources →
      (∀ sol : SolVec P K F, ∀ z ∈ nz, getd sol z 0 = 0 → evalD sol f0 = 0) →
      ∃ r, source_rule e i = .ok r ∧ ∀ sol : SolVec P K F, ∀ z ∈ r.nz, getd sol z 0 = 0 → evalD sol f = 0 := by
    intro i e0 f0 nz req h1 h2 h3 hm hz
    rw [h1, List.mem_singleton] at hm
    cases hm
    refine ⟨⟨nz, req⟩, ?_, hz⟩
    unfold source_rule
    rw [h2, h3, get_head, get_head]
    rfl
  have noneS : ∀ i : Inj P K F, i.sources = [] → (e, f) ∈ i.sources → False := by
    intro i h hm
    rw [h] at hm
    simp at hm
  cases c with
  | edge a t c => exact (noneS _ rfl hf).elim
  | source t c => exact one _ _ _ _ _ (ofList_one _ _) (ofList_one _ _) (ofList_one _ _) hf (by simp)
  | multEdge a t c l => exact (noneS _ rfl hf).elim
  | multSource t c l =>
    refine one _ _ _ _ _ (ofList_one _ _) (ofList_one _ _) (ofList_one _ _) hf ?_
    intro sol z hz h0
    exact mult_zero ((mem_frozenset _ _).1 hz) h0
  | triplet p q t c =>
    by_cases h : p = q
    · subst h
      refine (noneS _ ?_ hf).elim
      dsimp only [Coupling.inj, TripletCoupling]
      rw [if_neg (by simp)]
    · refine one _ t (triplet_source c p q) (frozenset [p, q]) (frozenset [p, q]) ?_ ?_ ?_ hf ?_
      · dsimp only [Coupling.inj, TripletCoupling]
        rw [if_pos h]
        exact ofList_one _ _
      · dsimp only [Coupling.inj, TripletCoupling]
        rw [if_pos h]
        exact ofList_one _ _
      · dsimp only [Coupling.inj, TripletCoupling]
        rw [if_pos h]
        exact ofList_one _ _
      · intro sol z hz h0
        rw [mem_frozenset] at hz
        rcases List.mem_cons.1 hz with rfl | hz
        · simp [evalD, triplet_source, h0]
        · rw [List.mem_singleton] at hz
          subst hz
          simp [evalD, triplet_source, h0]
  | tripletNorm p q t n c N =>
    by_cases h : p = q
    · subst h
      refine (noneS _ ?_ hf).elim
      dsimp only [Coupling.inj, TripletNormCoupling]
      rw [if_neg (by simp)]
    · refine one _ t (norm_source c p q n N) (frozenset [p, q]) (frozenset [p, q, n]) ?_ ?_ ?_ hf ?_
      · dsimp only [Coupling.inj, TripletNormCoupling]
        rw [if_pos h]
        exact ofList_one _ _
      · dsimp only [Coupling.inj, TripletNormCoupling]
        rw [if_pos h]
        exact ofList_one _ _
      · dsimp only [Coupling.inj, TripletNormCoupling]
        rw [if_pos h]
        exact ofList_one _ _
      · intro sol z hz h0
        refine evalD_pdiv_zero sol _ (N (getd sol n (10 ^ 12) + 1 / 10 ^ 30)) ?_
        rw [mem_frozenset] at hz
        unfold norm_source
        dsimp only
        rcases List.mem_cons.1 hz with rfl | hz
        · rw [h0, mul_zero, zero_mul]
        · rw [List.mem_singleton] at hz
          subst hz
          rw [h0, mul_zero]
  | tripletNorms p q t ns c N =>
    by_cases h : p = q
    · subst h
      refine (noneS _ ?_ hf).elim
      dsimp only [Coupling.inj, TripletNormsCoupling]
      rw [if_neg (by simp)]
    · refine one _ t (norms_source c p q ns N) (frozenset [p, q]) (frozenset ([p, q] ++ ns)) ?_ ?_ ?_ hf ?_
      · dsimp only [Coupling.inj, TripletNormsCoupling]
        rw [if_pos h]
        exact ofList_one _ _
      · dsimp only [Coupling.inj, TripletNormsCoupling]
        rw [if_pos h]
        exact ofList_one _ _
      · dsimp only [Coupling.inj, TripletNormsCoupling]
        rw [if_pos h]
        exact ofList_one _ _
      · intro sol z hz h0
        refine evalD_pdiv_zero sol _ (N (ns.map (fun n => getd sol n (10 ^ 12)))) ?_
        rw [mem_frozenset] at hz
        unfold norms_source
        dsimp only
        rcases List.mem_cons.1 hz with rfl | hz
        · rw [h0, mul_zero, zero_mul]
        · rw [List.mem_singleton] at hz
          subst hz
          rw [h0, mul_zero]

end Inject
