import Verif.Inject.IterateBasic

/-!
# A coupling at a solution which is known only at the required nodes
-/

set_option linter.unusedSectionVars false

namespace Inject
open Py

variable {P K F : Type} [DecidableEq P] [DecidableEq K] [Field F] [DecidableEq F]

/-- the nodes read by the edges and sources of `c` which can act are among `outs` -/
def Reads (A : P × K → Prop) (outs : List (P × K)) (c : Coupling P K F) : Prop :=
  (∀ e f r, (e, f) ∈ c.inj.edges → edge_rule e c.inj = .ok r → (∀ z ∈ r.nz, A z) → ∀ o ∈ r.req, o ∈ outs) ∧
  (∀ e f r, (e, f) ∈ c.inj.sources → source_rule e c.inj = .ok r → (∀ z ∈ r.nz, A z) → ∀ o ∈ r.req, o ∈ outs)

theorem reads_edge {A : P × K → Prop} {outs : List (P × K)} {c : Coupling P K F} (h : Reads A outs c)
    {e : (P × K) × (P × K)} {f : Func P K F} {nz req : List (P × K)} (h1 : (e, f) ∈ c.inj.edges)
    (h2 : Dict.get c.inj.edgesNZ e = .ok nz) (h3 : Dict.get c.inj.edgesReq e = .ok req)
    (h4 : ∀ z ∈ nz, A z) : ∀ o ∈ req, o ∈ outs := by
  refine h.1 e f ⟨nz, req⟩ h1 ?_ h4
  unfold edge_rule
  rw [h2, h3]
  rfl

theorem reads_source {A : P × K → Prop} {outs : List (P × K)} {c : Coupling P K F} (h : Reads A outs c)
    {e : P × K} {f : Func P K F} {nz req : List (P × K)} (h1 : (e, f) ∈ c.inj.sources)
    (h2 : Dict.get c.inj.sourcesNZ e = .ok nz) (h3 : Dict.get c.inj.sourcesReq e = .ok req)
    (h4 : ∀ z ∈ nz, A z) : ∀ o ∈ req, o ∈ outs := by
  refine h.2 e f ⟨nz, req⟩ h1 ?_ h4
  unfold source_rule
  rw [h2, h3]
  rfl

theorem prod_zero {x : P × K → F} {l : List (P × K)} {z : P × K} (hz : z ∈ l) (h : x z = 0) :
    (l.map x).prod = 0 := by
  apply List.prod_eq_zero
  exact List.mem_map.2 ⟨z, hz, h⟩

/-- Both edges of a triplet are present, each waiting for the other port and reading it. -/
theorem triplet_reads (c : Coupling P K F) {p q : P × K} (hc : c.factors = [p, q])
    (hk : (∃ t v, c = .triplet p q t v) ∨ (∃ t n v N, c = .tripletNorm p q t n v N) ∨
      ∃ t ns v N, c = .tripletNorms p q t ns v N)
    {A : P × K → Prop} {outs : List (P × K)} (h : Reads A outs c) :
    ∀ a ∈ [p, q], A a → a ∈ outs ∧ ∀ n ∈ c.norms, n ∈ outs := by
  have main : ∀ a b t : P × K, ∀ f : Func P K F, ∀ req : List (P × K),
      ((b, t), f) ∈ c.inj.edges → Dict.get c.inj.edgesNZ (b, t) = .ok [a] →
      Dict.get c.inj.edgesReq (b, t) = .ok req → (∀ o, o = a ∨ o ∈ c.norms → o ∈ req) → A a →
      a ∈ outs ∧ ∀ n ∈ c.norms, n ∈ outs := by
    intro a b t f req h1 h2 h3 h4 ha
    have := reads_edge h h1 h2 h3 (by simpa using ha)
    exact ⟨this a (h4 a (Or.inl rfl)), fun n hn => this n (h4 n (Or.inr hn))⟩
  intro a ha hA
  rcases hk with ⟨t, v, rfl⟩ | ⟨t, n, v, N, rfl⟩ | ⟨t, ns, v, N, rfl⟩
  · by_cases hpq : p = q
    · subst hpq
      have ha : a = p := by simpa using ha
      subst ha
      refine main a a t (triplet_edge v a) [a] ?_ ?_ ?_ ?_ hA
      · dsimp only [Coupling.inj, TripletCoupling]; rw [if_neg (by simp), ofList_one]; simp
      · dsimp only [Coupling.inj, TripletCoupling]; rw [if_neg (by simp)]; dsimp only; rw [ofList_one]; exact get_head _ _ _
      · dsimp only [Coupling.inj, TripletCoupling]; rw [if_neg (by simp)]; dsimp only; rw [ofList_one]; exact get_head _ _ _
      · simp [Coupling.norms]
    · have hne : (p, t) ≠ (q, t) := fun hh => hpq (congrArg Prod.fst hh)
      rcases List.mem_cons.1 ha with rfl | ha
      · refine main a q t (triplet_edge v a) [a] ?_ ?_ ?_ ?_ hA
        · dsimp only [Coupling.inj, TripletCoupling]; rw [if_pos hpq, ofList_two hne]; simp
        · dsimp only [Coupling.inj, TripletCoupling]; rw [if_pos hpq]; dsimp only; rw [ofList_two hne]; exact get_second hne _ _ _
        · dsimp only [Coupling.inj, TripletCoupling]; rw [if_pos hpq]; dsimp only; rw [ofList_two hne]; exact get_second hne _ _ _
        · simp [Coupling.norms]
      · rw [List.mem_singleton] at ha
        subst ha
        refine main a p t (triplet_edge v a) [a] ?_ ?_ ?_ ?_ hA
        · dsimp only [Coupling.inj, TripletCoupling]; rw [if_pos hpq, ofList_two hne]; simp
        · dsimp only [Coupling.inj, TripletCoupling]; rw [if_pos hpq]; dsimp only; rw [ofList_two hne]; exact get_head _ _ _
        · dsimp only [Coupling.inj, TripletCoupling]; rw [if_pos hpq]; dsimp only; rw [ofList_two hne]; exact get_head _ _ _
        · simp [Coupling.norms]
  · by_cases hpq : p = q
    · subst hpq
      have ha : a = p := by simpa using ha
      subst ha
      refine main a a t (norm_edge v a n N) (frozenset [a, n]) ?_ ?_ ?_ ?_ hA
      · dsimp only [Coupling.inj, TripletNormCoupling]; rw [if_neg (by simp), ofList_one]; simp
      · dsimp only [Coupling.inj, TripletNormCoupling]; rw [if_neg (by simp)]; dsimp only; rw [ofList_one]; exact get_head _ _ _
      · dsimp only [Coupling.inj, TripletNormCoupling]; rw [if_neg (by simp)]
        dsimp only; rw [ofList_one]; exact get_head _ _ _
      · intro o ho; rw [mem_frozenset]; simpa [Coupling.norms] using ho
    · have hne : (p, t) ≠ (q, t) := fun hh => hpq (congrArg Prod.fst hh)
      rcases List.mem_cons.1 ha with rfl | ha
      · refine main a q t (norm_edge v a n N) (frozenset [a, n]) ?_ ?_ ?_ ?_ hA
        · dsimp only [Coupling.inj, TripletNormCoupling]; rw [if_pos hpq, ofList_two hne]; simp
        · dsimp only [Coupling.inj, TripletNormCoupling]; rw [if_pos hpq]; dsimp only; rw [ofList_two hne]; exact get_second hne _ _ _
        · dsimp only [Coupling.inj, TripletNormCoupling]; rw [if_pos hpq]
          dsimp only; rw [ofList_two hne]; exact get_second hne _ _ _
        · intro o ho; rw [mem_frozenset]; simpa [Coupling.norms] using ho
      · rw [List.mem_singleton] at ha
        subst ha
        refine main a p t (norm_edge v a n N) (frozenset [a, n]) ?_ ?_ ?_ ?_ hA
        · dsimp only [Coupling.inj, TripletNormCoupling]; rw [if_pos hpq, ofList_two hne]; simp
        · dsimp only [Coupling.inj, TripletNormCoupling]; rw [if_pos hpq]; dsimp only; rw [ofList_two hne]; exact get_head _ _ _
        · dsimp only [Coupling.inj, TripletNormCoupling]; rw [if_pos hpq]
          dsimp only; rw [ofList_two hne]; exact get_head _ _ _
        · intro o ho; rw [mem_frozenset]; simpa [Coupling.norms] using ho
  · by_cases hpq : p = q
    · subst hpq
      have ha : a = p := by simpa using ha
      subst ha
      refine main a a t (norms_edge v a ns N) (frozenset ([a] ++ ns)) ?_ ?_ ?_ ?_ hA
      · dsimp only [Coupling.inj, TripletNormsCoupling]; rw [if_neg (by simp), ofList_one]; simp
      · dsimp only [Coupling.inj, TripletNormsCoupling]; rw [if_neg (by simp)]; dsimp only; rw [ofList_one]; exact get_head _ _ _
      · dsimp only [Coupling.inj, TripletNormsCoupling]; rw [if_neg (by simp)]
        dsimp only; rw [ofList_one]; exact get_head _ _ _
      · intro o ho; rw [mem_frozenset]; simpa [Coupling.norms] using ho
    · have hne : (p, t) ≠ (q, t) := fun hh => hpq (congrArg Prod.fst hh)
      rcases List.mem_cons.1 ha with rfl | ha
      · refine main a q t (norms_edge v a ns N) (frozenset ([a] ++ ns)) ?_ ?_ ?_ ?_ hA
        · dsimp only [Coupling.inj, TripletNormsCoupling]; rw [if_pos hpq, ofList_two hne]; simp
        · dsimp only [Coupling.inj, TripletNormsCoupling]; rw [if_pos hpq]; dsimp only; rw [ofList_two hne]; exact get_second hne _ _ _
        · dsimp only [Coupling.inj, TripletNormsCoupling]; rw [if_pos hpq]
          dsimp only; rw [ofList_two hne]; exact get_second hne _ _ _
        · intro o ho; rw [mem_frozenset]; simpa [Coupling.norms] using ho
      · rw [List.mem_singleton] at ha
        subst ha
        refine main a p t (norms_edge v a ns N) (frozenset ([a] ++ ns)) ?_ ?_ ?_ ?_ hA
        · dsimp only [Coupling.inj, TripletNormsCoupling]; rw [if_pos hpq, ofList_two hne]; simp
        · dsimp only [Coupling.inj, TripletNormsCoupling]; rw [if_pos hpq]; dsimp only; rw [ofList_two hne]; exact get_head _ _ _
        · dsimp only [Coupling.inj, TripletNormsCoupling]; rw [if_pos hpq]
          dsimp only; rw [ofList_two hne]; exact get_head _ _ _
        · intro o ho; rw [mem_frozenset]; simpa [Coupling.norms] using ho

/-- A coupling whose two factors vanish adds nothing to the linear system. -/
theorem triplet_idle (c : Coupling P K F) {p q : P × K}
    (hk : (∃ t v, c = .triplet p q t v) ∨ (∃ t n v N, c = .tripletNorm p q t n v N) ∨
      ∃ t ns v N, c = .tripletNorms p q t ns v N)
    (sol : SolVec P K F) (x : P × K → F) (t : P × K) (hp : getd sol p 0 = 0) (hxp : x p = 0) (hxq : x q = 0) :
    c.inj.linear sol x t = c.into x t := by
  have hinto : c.into x t = 0 := by
    unfold Coupling.into
    rcases hk with ⟨t, v, rfl⟩ | ⟨t, n, v, N, rfl⟩ | ⟨t, ns, v, N, rfl⟩ <;> simp [Coupling.term, hxp]
  rw [hinto]
  have hsrc : ∀ f : Func P K F, ∀ e, (e, f) ∈ c.inj.sources → evalD sol f = 0 := by
    intro f e hf
    obtain ⟨r, hr, h⟩ := source_idle c hf
    by_cases hpq : p = q
    · exfalso
      subst hpq
      rcases hk with ⟨t, v, rfl⟩ | ⟨t, n, v, N, rfl⟩ | ⟨t, ns, v, N, rfl⟩
      · dsimp only [Coupling.inj, TripletCoupling] at hf; rw [if_neg (by simp)] at hf; simp at hf
      · dsimp only [Coupling.inj, TripletNormCoupling] at hf; rw [if_neg (by simp)] at hf; simp at hf
      · dsimp only [Coupling.inj, TripletNormsCoupling] at hf; rw [if_neg (by simp)] at hf; simp at hf
    · refine h sol p ?_ hp
      unfold source_rule at hr
      obtain ⟨nz, h1, hr⟩ := bind_ok_inv hr
      obtain ⟨req, h2, hr⟩ := bind_ok_inv hr
      injection hr with hr
      subst hr
      show p ∈ nz
      have hz : nz = frozenset [p, q] := by
        rcases hk with ⟨t, v, rfl⟩ | ⟨t, n, v, N, rfl⟩ | ⟨t, ns, v, N, rfl⟩
        · dsimp only [Coupling.inj, TripletCoupling] at hf h1
          rw [if_pos hpq] at hf h1
          dsimp only at hf h1
          rw [ofList_one] at hf h1
          rw [List.mem_singleton] at hf
          cases hf
          rw [get_head] at h1
          injection h1 with h1
          exact h1.symm
        · dsimp only [Coupling.inj, TripletNormCoupling] at hf h1
          rw [if_pos hpq] at hf h1
          dsimp only at hf h1
          rw [ofList_one] at hf h1
          rw [List.mem_singleton] at hf
          cases hf
          rw [get_head] at h1
          injection h1 with h1
          exact h1.symm
        · dsimp only [Coupling.inj, TripletNormsCoupling] at hf h1
          rw [if_pos hpq] at hf h1
          dsimp only at hf h1
          rw [ofList_one] at hf h1
          rw [List.mem_singleton] at hf
          cases hf
          rw [get_head] at h1
          injection h1 with h1
          exact h1.symm
      rw [hz, mem_frozenset]
      simp
  have hedge : ∀ f : Func P K F, ∀ e, (e, f) ∈ c.inj.edges → x e.1 = 0 := by
    intro f e hf
    have : e.1 = p ∨ e.1 = q := by
      by_cases hpq : p = q
      · subst hpq
        rcases hk with ⟨t, v, rfl⟩ | ⟨t, n, v, N, rfl⟩ | ⟨t, ns, v, N, rfl⟩
        · dsimp only [Coupling.inj, TripletCoupling] at hf
          rw [if_neg (by simp), ofList_one] at hf
          rw [List.mem_singleton] at hf
          cases hf; exact Or.inl rfl
        · dsimp only [Coupling.inj, TripletNormCoupling] at hf
          rw [if_neg (by simp), ofList_one] at hf
          rw [List.mem_singleton] at hf
          cases hf; exact Or.inl rfl
        · dsimp only [Coupling.inj, TripletNormsCoupling] at hf
          rw [if_neg (by simp), ofList_one] at hf
          rw [List.mem_singleton] at hf
          cases hf; exact Or.inl rfl
      · have hne : ∀ t : P × K, (p, t) ≠ (q, t) := fun t hh => hpq (congrArg Prod.fst hh)
        rcases hk with ⟨t, v, rfl⟩ | ⟨t, n, v, N, rfl⟩ | ⟨t, ns, v, N, rfl⟩
        · dsimp only [Coupling.inj, TripletCoupling] at hf
          rw [if_pos hpq, ofList_two (hne t), List.mem_cons, List.mem_singleton] at hf
          rcases hf with hf | hf <;> cases hf
          · exact Or.inl rfl
          · exact Or.inr rfl
        · dsimp only [Coupling.inj, TripletNormCoupling] at hf
          rw [if_pos hpq, ofList_two (hne t), List.mem_cons, List.mem_singleton] at hf
          rcases hf with hf | hf <;> cases hf
          · exact Or.inl rfl
          · exact Or.inr rfl
        · dsimp only [Coupling.inj, TripletNormsCoupling] at hf
          rw [if_pos hpq, ofList_two (hne t), List.mem_cons, List.mem_singleton] at hf
          rcases hf with hf | hf <;> cases hf
          · exact Or.inl rfl
          · exact Or.inr rfl
    rcases this with h | h <;> rw [h]
    · exact hxp
    · exact hxq
  unfold Inj.linear
  rw [List.sum_eq_zero, List.sum_eq_zero, add_zero]
  · intro v hv
    obtain ⟨⟨e, f⟩, hf, rfl⟩ := List.mem_map.1 hv
    dsimp only
    rw [hsrc f e hf]
    simp
  · intro v hv
    obtain ⟨⟨e, f⟩, hf, rfl⟩ := List.mem_map.1 hv
    dsimp only
    rw [hedge f e hf]
    simp

/-- Let the solution vector hold `x` at the nodes read by what can act, and let inactive nodes carry nothing.
Then every coupling adds to the linear system what it stands for. -/
theorem term_of_active (c : Coupling P K F) (sol : SolVec P K F) (x : P × K → F) (t : P × K)
    (A : P × K → Prop) (outs : List (P × K))
    (h0 : ∀ z, ¬ A z → getd sol z 0 = 0 ∧ x z = 0)
    (h1 : ∀ z ∈ outs, getd sol z 0 = x z) (hr : Reads A outs c)
    (hnorm : (∃ p ∈ c.factors, A p) → ∀ n ∈ c.norms, (Dict.get? sol n).isSome)
    (hn : c.Normed (fun z => getd sol z 0)) (hu : c.Unshifted (fun z => getd sol z 0)) :
    c.inj.linear sol x t = c.into x t := by
  have hnorms : ∀ n, (Dict.get? sol n).isSome → n ∈ outs → Dict.get? sol n = some (x n) := by
    intro n hs ho
    obtain ⟨v, hv⟩ := Option.isSome_iff_exists.1 hs
    rw [hv, ← h1 n ho, getd_of_get? hv]
  have triple : ∀ p q, c.factors = [p, q] →
      ((∃ t v, c = .triplet p q t v) ∨ (∃ t n v N, c = .tripletNorm p q t n v N) ∨
        ∃ t ns v N, c = .tripletNorms p q t ns v N) →
      ((∀ n ∈ c.norms, getd sol n 0 = x n) → c.Normed x) →
      ((∀ n ∈ c.norms, getd sol n 0 = x n) → c.Unshifted x) →
      c.inj.linear sol x t = c.into x t := by
    intro p q hf hk hN hU
    have hread := triplet_reads c hf hk hr
    by_cases hA : A p ∨ A q
    · have ha : ∃ a ∈ [p, q], A a := by
        rcases hA with h | h
        · exact ⟨p, by simp, h⟩
        · exact ⟨q, by simp, h⟩
      have ho : ∀ n ∈ c.norms, n ∈ outs := by
        obtain ⟨a, ha, hAa⟩ := ha
        exact (hread a ha hAa).2
      have hs := hnorm (hf ▸ ha)
      have hx : ∀ n ∈ c.norms, getd sol n 0 = x n := fun n hn => h1 n (ho n hn)
      refine C41_fixed_point_term c sol x t ⟨?_, fun n hn => hnorms n (hs n hn) (ho n hn)⟩ (hN hx) (hU hx)
      intro a ha
      rw [hf] at ha
      by_cases hAa : A a
      · exact h1 a (hread a ha hAa).1
      · rw [(h0 a hAa).1, (h0 a hAa).2]
    · rw [not_or] at hA
      exact triplet_idle c hk sol x t (h0 p hA.1).1 (h0 p hA.1).2 (h0 q hA.2).2
  cases c with
  | edge a b v => exact C41_fixed_point_term _ sol x t ⟨by simp [Coupling.factors], by simp [Coupling.norms]⟩ trivial trivial
  | source b v => exact C41_fixed_point_term _ sol x t ⟨by simp [Coupling.factors], by simp [Coupling.norms]⟩ trivial trivial
  | multEdge a b v l =>
    by_cases hl : ∀ z ∈ l, A z
    · refine C41_fixed_point_term _ sol x t ⟨?_, by simp [Coupling.norms]⟩ trivial trivial
      have := reads_edge hr (e := (a, b)) (f := mult_func v l) (nz := frozenset l) (req := frozenset l)
        (by simp [Coupling.inj, MultiplicativeEdgeCoupling, ofList_one])
        (by dsimp only [Coupling.inj, MultiplicativeEdgeCoupling]; rw [ofList_one]; exact get_head _ _ _)
        (by dsimp only [Coupling.inj, MultiplicativeEdgeCoupling]; rw [ofList_one]; exact get_head _ _ _)
        (fun z hz => hl z ((mem_frozenset _ _).1 hz))
      exact fun z hz => h1 z (this z ((mem_frozenset _ _).2 hz))
    · rw [not_forall] at hl
      obtain ⟨z, hl⟩ := hl
      rw [Classical.not_imp] at hl
      have e1 := linear_one sol x t a b (mult_func v l) (Dict.ofList [((a, b), frozenset l)])
        (Dict.ofList [((a, b), frozenset l)]) [] []
      refine Eq.trans e1 ?_
      unfold Coupling.into
      rw [mult_zero hl.1 (h0 z hl.2).1, zero_mul, ite_self]
      simp [Coupling.term, prod_zero hl.1 (h0 z hl.2).2]
  | multSource b v l =>
    by_cases hl : ∀ z ∈ l, A z
    · refine C41_fixed_point_term _ sol x t ⟨?_, by simp [Coupling.norms]⟩ trivial trivial
      have := reads_source hr (e := b) (f := mult_func v l) (nz := frozenset l) (req := frozenset l)
        (by simp [Coupling.inj, MultiplicativeSourceCoupling, ofList_one])
        (by dsimp only [Coupling.inj, MultiplicativeSourceCoupling]; rw [ofList_one]; exact get_head _ _ _)
        (by dsimp only [Coupling.inj, MultiplicativeSourceCoupling]; rw [ofList_one]; exact get_head _ _ _)
        (fun z hz => hl z ((mem_frozenset _ _).1 hz))
      exact fun z hz => h1 z (this z ((mem_frozenset _ _).2 hz))
    · rw [not_forall] at hl
      obtain ⟨z, hl⟩ := hl
      rw [Classical.not_imp] at hl
      have e1 := linear_source sol x t b (mult_func v l) [] [] (Dict.ofList [(b, frozenset l)])
        (Dict.ofList [(b, frozenset l)])
      refine Eq.trans e1 ?_
      unfold Coupling.into
      rw [mult_zero hl.1 (h0 z hl.2).1, ite_self]
      simp [Coupling.term, prod_zero hl.1 (h0 z hl.2).2]
  | triplet p q b v => exact triple p q rfl (Or.inl ⟨b, v, rfl⟩) (fun _ => trivial) (fun _ => trivial)
  | tripletNorm p q b n v N =>
    refine triple p q rfl (Or.inr (Or.inl ⟨b, n, v, N, rfl⟩)) ?_ ?_
    · intro hx
      have hx : getd sol n 0 = x n := hx n (by simp [Coupling.norms])
      show N (x n) ≠ 0
      rw [← hx]
      exact hn
    · intro hx
      have hx : getd sol n 0 = x n := hx n (by simp [Coupling.norms])
      show p ≠ q → N (x n + 1 / 10 ^ 30) = N (x n)
      rw [← hx]
      exact hu
  | tripletNorms p q b ns v N =>
    refine triple p q rfl (Or.inr (Or.inr ⟨b, ns, v, N, rfl⟩)) ?_ (fun _ => trivial)
    intro hx
    have hx : ns.map (fun z => getd sol z 0) = ns.map x := List.map_congr_left hx
    show N (ns.map x) ≠ 0
    rw [← hx]
    exact hn

end Inject
