import Verif.Inject.SparsityBasic

/-!
# The sparsity analysis finds exactly the nodes which can carry a field

`Active` says which nodes can carry a field, with no mention of counters, inverse lists or an order.
-/

set_option linter.unusedSectionVars false

namespace Inject
open Py

variable {N : Type} [DecidableEq N]

/-- The nodes which can carry a field: the least set containing the nodes of the sources all of whose
`NZ` nodes are in the set, and closed under the bonds and under the edges all of whose `NZ` nodes are in the
set.  `bond a b`: a bond from `a` to `b`; `src n r`: an injection has a source at `n` with the `NZ` and `req`
sets of `r`; `edge a b r` likewise. -/
inductive Active (bond : N → N → Prop) (src : N → Rule N → Prop) (edge : N → N → Rule N → Prop) : N → Prop
  | source {n : N} {r : Rule N} : src n r → (∀ z ∈ r.nz, Active bond src edge z) → Active bond src edge n
  | bond {a b : N} : Active bond src edge a → bond a b → Active bond src edge b
  | edge {a b : N} {r : Rule N} : Active bond src edge a → edge a b r →
      (∀ z ∈ r.nz, Active bond src edge z) → Active bond src edge b

/-! ## the pieces of a turn -/

theorem lst_add_seq (g : SR N) (a b c x : N) :
    x ∈ lst (g.add a b).seq c ↔ x ∈ lst g.seq c ∨ (c = a ∧ x = b) := by
  unfold lst SR.add
  dsimp only
  rw [Dict.get?_set]
  by_cases h : a = c
  · subst h
    simp [mem_sadd']
  · simp [h, Ne.symm h]

theorem lst_add_req (g : SR N) (a b c x : N) :
    x ∈ lst (g.add a b).req c ↔ x ∈ lst g.req c ∨ (c = b ∧ x = a) := by
  unfold lst SR.add
  dsimp only
  rw [Dict.get?_set]
  by_cases h : b = c
  · subst h
    simp [mem_sadd']
  · simp [h, Ne.symm h]

/-- Python dictionaries of sets. -/
def SR.WF (g : SR N) : Prop :=
  (Dict.WF g.seq ∧ ∀ kv ∈ g.seq, kv.2.Nodup) ∧ (Dict.WF g.req ∧ ∀ kv ∈ g.req, kv.2.Nodup)

theorem set_nodup (d : Dict N (List N)) (h : Dict.WF d ∧ ∀ kv ∈ d, kv.2.Nodup) (a : N) (l : List N)
    (hl : l.Nodup) : Dict.WF (Dict.set d a l) ∧ ∀ kv ∈ Dict.set d a l, kv.2.Nodup := by
  have hw := Dict.WF_set h.1 a l
  refine ⟨hw, ?_⟩
  rintro ⟨k, v⟩ hkv
  have := Dict.get?_of_mem hw hkv
  rw [Dict.get?_set] at this
  by_cases hk : a = k
  · rw [if_pos hk] at this
    injection this with this
    rw [← this]
    exact hl
  · rw [if_neg hk] at this
    exact h.2 (k, v) (Dict.mem_of_get? this)

theorem lst_nodup {d : Dict N (List N)} (h : Dict.WF d ∧ ∀ kv ∈ d, kv.2.Nodup) (a : N) :
    ((Dict.get? d a).getD []).Nodup := by
  cases hg : Dict.get? d a with
  | none => simp
  | some l => exact h.2 (a, l) (Dict.mem_of_get? hg)

theorem SR.WF_add {g : SR N} (h : g.WF) (a b : N) : (g.add a b).WF :=
  ⟨set_nodup _ h.1 _ _ (nodup_sadd' (lst_nodup h.1 a) b),
    set_nodup _ h.2 _ _ (nodup_sadd' (lst_nodup h.2 b) a)⟩

theorem adds_edges (l : List (N × N)) (g : SR N) :
    (∀ a b, b ∈ lst (l.foldl (fun g e => g.add e.1 e.2) g).seq a ↔ b ∈ lst g.seq a ∨ (a, b) ∈ l) ∧
    (∀ a b, a ∈ lst (l.foldl (fun g e => g.add e.1 e.2) g).req b ↔ a ∈ lst g.req b ∨ (a, b) ∈ l) ∧
    (g.WF → (l.foldl (fun g e => g.add e.1 e.2) g).WF) := by
  induction l generalizing g with
  | nil => simp
  | cons e l ih =>
    obtain ⟨h1, h2, h3⟩ := ih (g.add e.1 e.2)
    obtain ⟨p, q⟩ := e
    refine ⟨?_, ?_, ?_⟩
    · intro a b
      rw [List.foldl_cons, h1, lst_add_seq, List.mem_cons, Prod.mk.injEq, or_assoc]
    · intro a b
      rw [List.foldl_cons, h2, lst_add_req, List.mem_cons, Prod.mk.injEq, or_assoc]
      constructor
      · rintro (h | ⟨h, h'⟩ | h)
        · exact Or.inl h
        · exact Or.inr (Or.inl ⟨h', h⟩)
        · exact Or.inr (Or.inr h)
      · rintro (h | ⟨h, h'⟩ | h)
        · exact Or.inl h
        · exact Or.inr (Or.inl ⟨h', h⟩)
        · exact Or.inr (Or.inr h)
    · intro h
      exact h3 (SR.WF_add h _ _)

/-- the effect of all fired sources -/
theorem fire_src_spec (l : List (Nat × N × Rule N)) (st : SG N) :
    let st' := l.foldl (fun s e => fire_src s e.2.1 e.2.2) st
    (st'.g = st.g ∧ st'.sub = st.sub ∧ st'.pend = st.pend ∧ st'.nord = st.nord ∧ st'.ninv = st.ninv ∧
      st'.eord = st.eord ∧ st'.einv = st.einv) ∧
    (∀ n, n ∈ st'.inputs ↔ n ∈ st.inputs ∨ ∃ e ∈ l, e.2.1 = n) ∧
    (∀ n, n ∈ st'.pend2 ↔ n ∈ st.pend2 ∨ (n ∉ st.sub ∧ ∃ e ∈ l, e.2.1 = n)) ∧
    (∀ n, n ∈ st'.outs ↔ n ∈ st.outs ∨ ∃ e ∈ l, n ∈ e.2.2.req) := by
  induction l generalizing st with
  | nil => simp
  | cons e l ih =>
    obtain ⟨i, k, r⟩ := e
    obtain ⟨⟨h1, h2, h3, h4, h5, h6, h7⟩, hi, hp, ho⟩ := ih (fire_src st k r)
    refine ⟨⟨h1, h2, h3, h4, h5, h6, h7⟩, ?_, ?_, ?_⟩
    · intro n
      rw [List.foldl_cons, hi]
      show n ∈ Graph.sadd st.inputs k ∨ _ ↔ _
      rw [mem_sadd']
      simp only [List.mem_cons, exists_eq_or_imp, or_assoc, eq_comm]
    · intro n
      rw [List.foldl_cons, hp]
      show n ∈ (if k ∈ st.sub then st.pend2 else Graph.sadd st.pend2 k) ∨ (n ∉ st.sub ∧ _) ↔ _
      have : n ∈ (if k ∈ st.sub then st.pend2 else Graph.sadd st.pend2 k) ↔
          n ∈ st.pend2 ∨ (n ∉ st.sub ∧ k = n) := by
        by_cases hk : k ∈ st.sub
        · rw [if_pos hk]
          constructor
          · exact Or.inl
          · rintro (h | ⟨h, rfl⟩)
            · exact h
            · exact absurd hk h
        · rw [if_neg hk, mem_sadd']
          constructor
          · rintro (h | rfl)
            · exact Or.inl h
            · exact Or.inr ⟨hk, rfl⟩
          · rintro (h | ⟨_, rfl⟩)
            · exact Or.inl h
            · exact Or.inr rfl
      rw [this, or_assoc, ← and_or_left]
      simp only [List.mem_cons, exists_eq_or_imp]
    · intro n
      rw [List.foldl_cons, ho]
      show n ∈ adds st.outs r.req ∨ _ ↔ _
      rw [mem_adds, or_assoc]
      simp only [List.mem_cons, exists_eq_or_imp]

/-- the effect of all fired edges -/
theorem fire_edge_spec (l : List (Nat × (N × N) × Rule N)) (st : SG N) :
    let st' := l.foldl (fun s e => fire_edge s e.2.1 e.2.2) st
    (st'.inputs = st.inputs ∧ st'.sub = st.sub ∧ st'.pend = st.pend ∧ st'.nord = st.nord ∧
      st'.ninv = st.ninv ∧ st'.eord = st.eord ∧ st'.einv = st.einv) ∧
    (∀ a b, b ∈ lst st'.g.seq a ↔ b ∈ lst st.g.seq a ∨ ∃ e ∈ l, e.2.1 = (a, b)) ∧
    (∀ a b, a ∈ lst st'.g.req b ↔ a ∈ lst st.g.req b ∨ ∃ e ∈ l, e.2.1 = (a, b)) ∧
    (∀ n, n ∈ st'.pend2 ↔ n ∈ st.pend2 ∨ (n ∉ st.sub ∧ ∃ e ∈ l, e.2.1.1 ∈ st.sub ∧ e.2.1.2 = n)) ∧
    (∀ n, n ∈ st'.outs ↔ n ∈ st.outs ∨ ∃ e ∈ l, n ∈ e.2.2.req) ∧
    (st.g.WF → st'.g.WF) := by
  induction l generalizing st with
  | nil => simp
  | cons e l ih =>
    obtain ⟨i, ⟨p, q⟩, r⟩ := e
    obtain ⟨⟨h1, h2, h3, h4, h5, h6, h7⟩, hs, hr, hp, ho, hw⟩ := ih (fire_edge st (p, q) r)
    refine ⟨⟨h1, h2, h3, h4, h5, h6, h7⟩, ?_, ?_, ?_, ?_, ?_⟩
    · intro a b
      rw [List.foldl_cons, hs]
      show b ∈ lst (st.g.add p q).seq a ∨ _ ↔ _
      rw [lst_add_seq, or_assoc]
      simp only [List.mem_cons, exists_eq_or_imp]
      apply or_congr_right
      apply or_congr_left
      rw [Prod.mk.injEq]
      constructor <;> (rintro ⟨rfl, rfl⟩; exact ⟨rfl, rfl⟩)
    · intro a b
      rw [List.foldl_cons, hr]
      show a ∈ lst (st.g.add p q).req b ∨ _ ↔ _
      rw [lst_add_req, or_assoc]
      simp only [List.mem_cons, exists_eq_or_imp]
      apply or_congr_right
      apply or_congr_left
      rw [Prod.mk.injEq]
      constructor <;> (rintro ⟨rfl, rfl⟩; exact ⟨rfl, rfl⟩)
    · intro n
      rw [List.foldl_cons, hp]
      show n ∈ (if p ∈ st.sub then (if q ∈ st.sub then st.pend2 else Graph.sadd st.pend2 q)
        else st.pend2) ∨ (n ∉ st.sub ∧ ∃ e ∈ l, e.2.1.1 ∈ st.sub ∧ _) ↔ _
      have : n ∈ (if p ∈ st.sub then (if q ∈ st.sub then st.pend2 else Graph.sadd st.pend2 q)
          else st.pend2) ↔ n ∈ st.pend2 ∨ (n ∉ st.sub ∧ p ∈ st.sub ∧ q = n) := by
        by_cases hk : p ∈ st.sub
        · rw [if_pos hk]
          by_cases hq : q ∈ st.sub
          · rw [if_pos hq]
            constructor
            · exact Or.inl
            · rintro (h | ⟨h, _, rfl⟩)
              · exact h
              · exact absurd hq h
          · rw [if_neg hq, mem_sadd']
            constructor
            · rintro (h | rfl)
              · exact Or.inl h
              · exact Or.inr ⟨hq, hk, rfl⟩
            · rintro (h | ⟨_, _, rfl⟩)
              · exact Or.inl h
              · exact Or.inr rfl
        · rw [if_neg hk]
          constructor
          · exact Or.inl
          · rintro (h | ⟨_, h, _⟩)
            · exact h
            · exact absurd h hk
      rw [this, or_assoc, ← and_or_left]
      simp only [List.mem_cons, exists_eq_or_imp]
    · intro n
      rw [List.foldl_cons, ho]
      show n ∈ adds st.outs r.req ∨ _ ↔ _
      rw [mem_adds, or_assoc]
      simp only [List.mem_cons, exists_eq_or_imp]
    · intro h
      exact hw (SR.WF_add h _ _)

theorem pend_spec (sub l p : List N) (n : N) :
    n ∈ l.foldl (fun p s => if s ∈ sub then p else Graph.sadd p s) p ↔ n ∈ p ∨ (n ∉ sub ∧ n ∈ l) := by
  induction l generalizing p with
  | nil => simp
  | cons s l ih =>
    rw [List.foldl_cons, ih]
    by_cases hs : s ∈ sub
    · rw [if_pos hs, List.mem_cons]
      constructor
      · rintro (h | ⟨h, h'⟩)
        · exact Or.inl h
        · exact Or.inr ⟨h, Or.inr h'⟩
      · rintro (h | ⟨h, rfl | h'⟩)
        · exact Or.inl h
        · exact absurd hs h
        · exact Or.inr ⟨h, h'⟩
    · rw [if_neg hs, mem_sadd', List.mem_cons]
      constructor
      · rintro ((h | rfl) | ⟨h, h'⟩)
        · exact Or.inl h
        · exact Or.inr ⟨hs, Or.inl rfl⟩
        · exact Or.inr ⟨h, Or.inr h'⟩
      · rintro (h | ⟨h, rfl | h'⟩)
        · exact Or.inl (Or.inl h)
        · exact Or.inl (Or.inr rfl)
        · exact Or.inr ⟨h, h'⟩

/-! ## the invariant -/

section
variable (bonds : SR N) (srcRules : Dict N (List (Rule N))) (edgeRules : Dict (N × N) (List (Rule N)))

/-- the nodes which can carry a field, for the given bonds and rules -/
abbrev Act : N → Prop :=
  Active (fun a b => b ∈ lst bonds.seq a) (fun n r => HasRule srcRules n r)
    (fun a b r => HasRule edgeRules (a, b) r)

/-- the loop's invariant -/
structure LinkInv (st : SG N) : Prop where
  nord : OrdOk srcRules st.sub st.nord
  ninv : InvOk srcRules st.sub st.ninv
  eord : OrdOk edgeRules st.sub st.eord
  einv : InvOk edgeRules st.sub st.einv
  inputs : ∀ n, n ∈ st.inputs ↔ ∃ r, HasRule srcRules n r ∧ On st.sub r
  seq : ∀ a b, b ∈ lst st.g.seq a ↔ b ∈ lst bonds.seq a ∨ ∃ r, HasRule edgeRules (a, b) r ∧ On st.sub r
  req : ∀ a b, a ∈ lst st.g.req b ↔ b ∈ lst bonds.seq a ∨ ∃ r, HasRule edgeRules (a, b) r ∧ On st.sub r
  outs : ∀ o, o ∈ st.outs ↔ (∃ n r, HasRule srcRules n r ∧ On st.sub r ∧ o ∈ r.req) ∨
    ∃ e r, HasRule edgeRules e r ∧ On st.sub r ∧ o ∈ r.req
  act : ∀ n, n ∈ st.sub ∨ n ∈ st.pend ∨ n ∈ st.pend2 → Act bonds srcRules edgeRules n
  src : ∀ n ∈ st.inputs, n ∈ st.sub ∨ n ∈ st.pend ∨ n ∈ st.pend2
  clo : ∀ a ∈ st.sub, ∀ b ∈ lst st.g.seq a, b ∈ st.sub ∨ b ∈ st.pend ∨ b ∈ st.pend2
  disj : ∀ n ∈ st.pend, n ∉ st.sub
  wf : bonds.WF → st.g.WF

end

variable {bonds : SR N} {srcRules : Dict N (List (Rule N))} {edgeRules : Dict (N × N) (List (Rule N))}

theorem on_sadd {S : List N} {z : N} {r : Rule N} (h : On S r) : On (Graph.sadd S z) r :=
  fun y hy => (mem_sadd' _ _ _).2 (Or.inl (h y hy))

theorem on_split {κ : Type} [DecidableEq κ] {rules : Dict κ (List (Rule N))} (hw : Dict.WF rules)
    {S : List N} {ord : Dict κ (List Int)} (ho : OrdOk rules S ord) {z : N} (hz : z ∉ S)
    (p : κ → Rule N → Prop) :
    (∃ k r, HasRule rules k r ∧ On (Graph.sadd S z) r ∧ p k r) ↔
      (∃ k r, HasRule rules k r ∧ On S r ∧ p k r) ∨ ∃ e ∈ fired rules ord z, p e.2.1 e.2.2 := by
  constructor
  · rintro ⟨k, r, hr, h1, h2⟩
    by_cases h : On S r
    · exact Or.inl ⟨k, r, hr, h, h2⟩
    · obtain ⟨i, hi⟩ := (hasRule_iff _ _ _).1 hr
      exact Or.inr ⟨(i, k, r), (mem_fired hw ho hz _ _ _).2 ⟨hi, h, h1⟩, h2⟩
  · rintro (⟨k, r, hr, h1, h2⟩ | ⟨⟨i, k, r⟩, hm, h2⟩)
    · exact ⟨k, r, hr, on_sadd h1, h2⟩
    · obtain ⟨hi, _, h1⟩ := (mem_fired hw ho hz _ _ _).1 hm
      exact ⟨k, r, (hasRule_iff _ _ _).2 ⟨i, hi⟩, h1, h2⟩

theorem on_split_at {κ : Type} [DecidableEq κ] {rules : Dict κ (List (Rule N))} (hw : Dict.WF rules)
    {S : List N} {ord : Dict κ (List Int)} (ho : OrdOk rules S ord) {z : N} (hz : z ∉ S) (k : κ) :
    (∃ r, HasRule rules k r ∧ On (Graph.sadd S z) r) ↔
      (∃ r, HasRule rules k r ∧ On S r) ∨ ∃ e ∈ fired rules ord z, e.2.1 = k := by
  have := on_split hw ho hz (fun k' _ => k' = k)
  constructor
  · rintro ⟨r, h1, h2⟩
    rcases this.1 ⟨k, r, h1, h2, rfl⟩ with ⟨k', r', h1', h2', rfl⟩ | h
    · exact Or.inl ⟨r', h1', h2'⟩
    · exact Or.inr h
  · intro h
    have h' : (∃ k' r, HasRule rules k' r ∧ On S r ∧ k' = k) ∨ ∃ e ∈ fired rules ord z, e.2.1 = k := by
      rcases h with ⟨r, h1, h2⟩ | h
      · exact Or.inl ⟨k, r, h1, h2, rfl⟩
      · exact Or.inr h
    obtain ⟨k', r, h1, h2, rfl⟩ := this.2 h'
    exact ⟨r, h1, h2⟩

theorem process_inv (hws : Dict.WF srcRules) (hwe : Dict.WF edgeRules) {st : SG N}
    (h : LinkInv bonds srcRules edgeRules st) {z : N} (hz : z ∈ st.pend) :
    LinkInv bonds srcRules edgeRules (process st z) ∧ (process st z).sub = Graph.sadd st.sub z := by
  have hzs : z ∉ st.sub := h.disj z hz
  -- the state after following the node's successors
  let st1 : SG N := { st with
    pend := ((Dict.get? st.g.seq z).getD []).foldl
      (fun p s => if s ∈ Graph.sadd st.sub z then p else Graph.sadd p s) (st.pend.filter (· ≠ z))
    sub := Graph.sadd st.sub z }
  have hp1 : ∀ n, n ∈ st1.pend ↔ (n ∈ st.pend ∧ n ≠ z) ∨ (n ∉ Graph.sadd st.sub z ∧ n ∈ lst st.g.seq z) := by
    intro n
    rw [pend_spec]
    apply or_congr_left
    rw [List.mem_filter]
    simp
  -- the sources
  have hinv1 : (Dict.get? st.ninv z).getD [] = inverse srcRules z := h.ninv z hzs
  obtain ⟨_, hc1⟩ := count_loop_spec fire_src (inverse srcRules z) (nodup_inverse hws z) st.nord st1
  have ho1 := ordOk_step hws h.nord hzs fire_src st1
  let c1 := count_loop fire_src (inverse srcRules z) st.nord st1
  let st2 : SG N := { c1.2 with nord := c1.1, ninv := Dict.erase st.ninv z }
  have hc1' : c1.2 = (fired srcRules st.nord z).foldl (fun s e => fire_src s e.2.1 e.2.2) st1 := hc1
  obtain ⟨⟨s1, s2, s3, s4, s5, s6, s7⟩, si, sp, so⟩ := fire_src_spec (fired srcRules st.nord z) st1
  rw [← hc1'] at s1 s2 s3 s4 s5 s6 s7 si sp so
  -- the edges
  have heinv : c1.2.einv = st.einv := s7
  have heord : c1.2.eord = st.eord := s6
  have hinv2 : (Dict.get? st2.einv z).getD [] = inverse edgeRules z := by
    show (Dict.get? c1.2.einv z).getD [] = _
    rw [heinv]
    exact h.einv z hzs
  have hst2e : st2.eord = st.eord := heord
  obtain ⟨_, hc2⟩ := count_loop_spec fire_edge (inverse edgeRules z) (nodup_inverse hwe z) st.eord st2
  have ho2 := ordOk_step hwe h.eord hzs fire_edge st2
  let c2 := count_loop fire_edge (inverse edgeRules z) st.eord st2
  have hc2' : c2.2 = (fired edgeRules st.eord z).foldl (fun s e => fire_edge s e.2.1 e.2.2) st2 := hc2
  obtain ⟨⟨e1, e2, e3, e4, e5, e6, e7⟩, es, er, ep, eo, ew⟩ :=
    fire_edge_spec (fired edgeRules st.eord z) st2
  rw [← hc2'] at e1 e2 e3 e4 e5 e6 e7 es er ep eo ew
  let st3 : SG N := { c2.2 with eord := c2.1, einv := Dict.erase st2.einv z }
  have hproc : process st z = st3 := by
    have hproc0 : process st z =
      (let c := count_loop fire_src ((Dict.get? st1.ninv z).getD []) st1.nord st1
       let st := { c.2 with nord := c.1, ninv := Dict.erase st1.ninv z }
       let c := count_loop fire_edge ((Dict.get? st.einv z).getD []) st.eord st
       { c.2 with eord := c.1, einv := Dict.erase st.einv z }) := rfl
    rw [hproc0]
    have hinv1' : (Dict.get? st1.ninv z).getD [] = inverse srcRules z := hinv1
    rw [hinv1']
    show (let c := count_loop fire_edge ((Dict.get? st2.einv z).getD []) st2.eord st2
          ({ c.2 with eord := c.1, einv := Dict.erase st2.einv z } : SG N)) = st3
    rw [hinv2, hst2e]
  have hsub2 : st2.sub = Graph.sadd st.sub z := s2
  have hsub : st3.sub = Graph.sadd st.sub z := by
    show c2.2.sub = _
    rw [e2, hsub2]
  have hpend : st3.pend = st1.pend := by
    show c2.2.pend = _
    rw [e3]
    exact s3
  rw [hproc]
  have hseq3 : ∀ a b, b ∈ lst st3.g.seq a ↔
      b ∈ lst bonds.seq a ∨ ∃ r, HasRule edgeRules (a, b) r ∧ On st3.sub r := by
    intro a b
    rw [hsub, on_split_at hwe h.eord hzs, ← or_assoc, ← h.seq]
    show b ∈ lst c2.2.g.seq a ↔ _
    rw [es]
    apply or_congr_left
    show b ∈ lst c1.2.g.seq a ↔ _
    rw [s1]
  have hinputs3 : ∀ n, n ∈ st3.inputs ↔ ∃ r, HasRule srcRules n r ∧ On st3.sub r := by
    intro n
    rw [hsub, on_split_at hws h.nord hzs, ← h.inputs]
    show n ∈ c2.2.inputs ↔ _
    rw [e1]
    show n ∈ c1.2.inputs ↔ _
    rw [si]
  -- membership in the pending sets
  have hp2 : ∀ n, n ∈ st3.pend2 ↔ n ∈ st.pend2 ∨
      (n ∉ Graph.sadd st.sub z ∧ ∃ e ∈ fired srcRules st.nord z, e.2.1 = n) ∨
      (n ∉ Graph.sadd st.sub z ∧ ∃ e ∈ fired edgeRules st.eord z, e.2.1.1 ∈ Graph.sadd st.sub z ∧ e.2.1.2 = n) := by
    intro n
    show n ∈ c2.2.pend2 ↔ _
    rw [ep, hsub2, ← or_assoc]
    apply or_congr_left
    show n ∈ c1.2.pend2 ↔ _
    rw [sp]
  have hold : ∀ n, n ∈ st.sub ∨ n ∈ st.pend ∨ n ∈ st.pend2 →
      n ∈ st3.sub ∨ n ∈ st3.pend ∨ n ∈ st3.pend2 := by
    intro n hn
    by_cases hnz : n = z
    · left
      rw [hsub, mem_sadd']
      exact Or.inr hnz
    · rcases hn with hn | hn | hn
      · left
        rw [hsub, mem_sadd']
        exact Or.inl hn
      · right; left
        rw [hpend, hp1]
        exact Or.inl ⟨hn, hnz⟩
      · right; right
        rw [hp2]
        exact Or.inl hn
  have hzact : Act bonds srcRules edgeRules z := h.act z (Or.inr (Or.inl hz))
  have hsubact : ∀ n ∈ Graph.sadd st.sub z, Act bonds srcRules edgeRules n := by
    intro n hn
    rcases (mem_sadd' _ _ _).1 hn with hn | rfl
    · exact h.act n (Or.inl hn)
    · exact hzact
  have hseqact : ∀ a b, Act bonds srcRules edgeRules a → b ∈ lst st3.g.seq a →
      Act bonds srcRules edgeRules b := by
    intro a b ha hb
    rcases (hseq3 a b).1 hb with hb | ⟨r, hr, hon⟩
    · exact Active.bond ha hb
    · exact Active.edge ha hr (fun y hy => hsubact y (hsub ▸ hon y hy))
  have hinvok : ∀ {κ : Type} [DecidableEq κ] {rules : Dict κ (List (Rule N))}
      {inv : Dict N (List (Nat × κ × Rule N))}, InvOk rules st.sub inv →
      InvOk rules (Graph.sadd st.sub z) (Dict.erase inv z) := by
    intro κ _ rules inv hi y hy
    rw [mem_sadd'] at hy
    rw [lst_erase, if_neg (fun hh => hy (Or.inr hh.symm))]
    exact hi y (fun hh => hy (Or.inl hh))
  refine ⟨⟨?_, ?_, ?_, ?_, hinputs3, hseq3, ?_, ?_, ?_, ?_, ?_, ?_, ?_⟩, hsub⟩
  · rw [hsub]
    show OrdOk srcRules _ c2.2.nord
    rw [e4]
    exact ho1
  · rw [hsub]
    show InvOk srcRules _ c2.2.ninv
    rw [e5]
    exact hinvok h.ninv
  · rw [hsub]
    exact ho2
  · rw [hsub]
    show InvOk edgeRules _ (Dict.erase c1.2.einv z)
    rw [heinv]
    exact hinvok h.einv
  · intro a b
    rw [hsub, on_split_at hwe h.eord hzs, ← or_assoc, ← h.req]
    show a ∈ lst c2.2.g.req b ↔ _
    rw [er]
    apply or_congr_left
    show a ∈ lst c1.2.g.req b ↔ _
    rw [s1]
  · intro o
    rw [hsub, on_split hws h.nord hzs (fun _ r => o ∈ r.req), on_split hwe h.eord hzs (fun _ r => o ∈ r.req)]
    show o ∈ c2.2.outs ↔ _
    rw [eo]
    have h2 : o ∈ st2.outs ↔ o ∈ st.outs ∨ ∃ e ∈ fired srcRules st.nord z, o ∈ e.2.2.req := so o
    rw [h2, h.outs]
    constructor
    · rintro (((h | h) | h) | h)
      · exact Or.inl (Or.inl h)
      · exact Or.inr (Or.inl h)
      · exact Or.inl (Or.inr h)
      · exact Or.inr (Or.inr h)
    · rintro ((h | h) | (h | h))
      · exact Or.inl (Or.inl (Or.inl h))
      · exact Or.inl (Or.inr h)
      · exact Or.inl (Or.inl (Or.inr h))
      · exact Or.inr h
  · rintro n (hn | hn | hn)
    · exact hsubact n (hsub ▸ hn)
    · rw [hpend, hp1] at hn
      rcases hn with ⟨hn, _⟩ | ⟨_, hn⟩
      · exact h.act n (Or.inr (Or.inl hn))
      · rcases (h.seq z n).1 hn with hn | ⟨r, hr, hon⟩
        · exact Active.bond hzact hn
        · exact Active.edge hzact hr (fun y hy => h.act y (Or.inl (hon y hy)))
    · rw [hp2] at hn
      rcases hn with hn | ⟨_, ⟨i, k, r⟩, he, rfl⟩ | ⟨_, ⟨i, ⟨a, b⟩, r⟩, he, ha, rfl⟩
      · exact h.act n (Or.inr (Or.inr hn))
      · obtain ⟨hi, _, hon⟩ := (mem_fired hws h.nord hzs _ _ _).1 he
        exact Active.source ((hasRule_iff _ _ _).2 ⟨i, hi⟩) (fun y hy => hsubact y (hon y hy))
      · obtain ⟨hi, _, hon⟩ := (mem_fired hwe h.eord hzs _ _ _).1 he
        exact Active.edge (hsubact a ha) ((hasRule_iff _ _ _).2 ⟨i, hi⟩) (fun y hy => hsubact y (hon y hy))
  · intro n hn
    by_cases hns : n ∈ Graph.sadd st.sub z
    · exact Or.inl (hsub ▸ hns)
    · rw [hinputs3, hsub, on_split_at hws h.nord hzs] at hn
      rcases hn with hn | hn
      · exact hold n (h.src n ((h.inputs n).2 hn))
      · right; right
        rw [hp2]
        exact Or.inr (Or.inl ⟨hns, hn⟩)
  · intro a ha b hb
    rw [hsub] at ha
    by_cases hbs : b ∈ Graph.sadd st.sub z
    · exact Or.inl (hsub ▸ hbs)
    · have hb' : b ∈ lst st.g.seq a ∨ ∃ e ∈ fired edgeRules st.eord z, e.2.1 = (a, b) := by
        rw [hseq3, hsub, on_split_at hwe h.eord hzs, ← or_assoc, ← h.seq] at hb
        exact hb
      rcases hb' with hb' | ⟨e, he, heab⟩
      · rcases (mem_sadd' _ _ _).1 ha with ha | rfl
        · exact hold b (h.clo a ha b hb')
        · right; left
          rw [hpend, hp1]
          exact Or.inr ⟨hbs, hb'⟩
      · right; right
        rw [hp2]
        refine Or.inr (Or.inr ⟨hbs, e, he, ?_, ?_⟩)
        · rw [heab]; exact ha
        · rw [heab]
  · intro n hn
    rw [hsub, mem_sadd']
    rw [hpend, hp1] at hn
    rcases hn with ⟨hn, hnz⟩ | ⟨hn, _⟩
    · rintro (hh | hh)
      · exact h.disj n hn hh
      · exact hnz hh
    · rwa [mem_sadd'] at hn
  · intro hw
    show c2.2.g.WF
    apply ew
    show c1.2.g.WF
    rw [s1]
    exact h.wf hw

theorem swap_inv {st : SG N} (h : LinkInv bonds srcRules edgeRules st) (hp : st.pend = []) (o : Nat) :
    LinkInv bonds srcRules edgeRules
      { st with pend := st.pend2.filter (· ∉ st.sub), pend2 := [], order := o } := by
  have hmem : ∀ n, n ∈ st.pend2.filter (· ∉ st.sub) ↔ n ∈ st.pend2 ∧ n ∉ st.sub := by
    intro n
    rw [List.mem_filter]
    simp
  have hcov : ∀ n, n ∈ st.sub ∨ n ∈ st.pend ∨ n ∈ st.pend2 →
      n ∈ st.sub ∨ n ∈ st.pend2.filter (· ∉ st.sub) ∨ n ∈ ([] : List N) := by
    rintro n (hn | hn | hn)
    · exact Or.inl hn
    · rw [hp] at hn; simp at hn
    · by_cases hs : n ∈ st.sub
      · exact Or.inl hs
      · exact Or.inr (Or.inl ((hmem n).2 ⟨hn, hs⟩))
  refine ⟨h.nord, h.ninv, h.eord, h.einv, h.inputs, h.seq, h.req, h.outs, ?_, ?_, ?_, ?_, h.wf⟩
  · rintro n (hn | hn | hn)
    · exact h.act n (Or.inl hn)
    · exact h.act n (Or.inr (Or.inr ((hmem n).1 hn).1))
    · simp at hn
  · exact fun n hn => hcov n (h.src n hn)
  · exact fun a ha b hb => hcov b (h.clo a ha b hb)
  · exact fun n hn => ((hmem n).1 hn).2

theorem link_inv (pick : List N → N) (hpick : ∀ l, l ≠ [] → pick l ∈ l)
    (hws : Dict.WF srcRules) (hwe : Dict.WF edgeRules) (fuel : Nat) (st st' : SG N)
    (h : LinkInv bonds srcRules edgeRules st) (hl : link_loop pick fuel st = some st') :
    LinkInv bonds srcRules edgeRules st' ∧ st'.pend = [] ∧ ∀ n ∈ st'.pend2, n ∈ st'.sub := by
  induction fuel generalizing st with
  | zero => cases hl
  | succ fuel ih =>
    unfold link_loop at hl
    by_cases hp : st.pend = []
    · rw [if_pos hp] at hl
      dsimp only at hl
      by_cases hp2 : st.pend2.filter (· ∉ st.sub) = []
      · rw [if_pos hp2] at hl
        rw [Option.some.injEq] at hl
        rw [← hl]
        refine ⟨h, hp, ?_⟩
        intro n hn
        by_contra hns
        have : n ∈ st.pend2.filter (· ∉ st.sub) := by
          rw [List.mem_filter]; simpa using ⟨hn, hns⟩
        rw [hp2] at this
        simp at this
      · rw [if_neg hp2] at hl
        exact ih _ (swap_inv h hp _) hl
    · rw [if_neg hp] at hl
      exact ih _ (process_inv hws hwe h (hpick _ hp)).1 hl

/-- the state the loop starts from -/
def linkStart (bonds : SR N) (srcRules : Dict N (List (Rule N))) (edgeRules : Dict (N × N) (List (Rule N))) :
    SG N :=
  let T := tab_build [] srcRules
  let U := tab_build T.outs edgeRules
  { g := U.zero.foldl (fun g e => g.add e.1 e.2) bonds
    inputs := adds [] T.zero
    outs := U.outs
    sub := []
    pend := adds [] T.zero
    pend2 := []
    nord := T.ord
    ninv := T.inv
    eord := U.ord
    einv := U.inv
    order := 1 }

theorem on_nil (r : Rule N) : On [] r ↔ r.nz = [] := by
  unfold On
  constructor
  · intro h
    by_contra hne
    obtain ⟨a, ha⟩ := List.exists_mem_of_ne_nil _ hne
    have := h a ha
    simp at this
  · intro h z hz
    rw [h] at hz
    simp at hz

theorem start_inv (hws : Dict.WF srcRules) (hwe : Dict.WF edgeRules)
    (hbal : ∀ a b, b ∈ lst bonds.seq a ↔ a ∈ lst bonds.req b) :
    LinkInv bonds srcRules edgeRules (linkStart bonds srcRules edgeRules) := by
  obtain ⟨_, t2, t3, t4, _⟩ := tab_build_spec (N := N) [] hws
  obtain ⟨_, u2, u3, u4, _⟩ := tab_build_spec (tab_build [] srcRules).outs hwe
  obtain ⟨g1, g2, g3⟩ := adds_edges (tab_build (tab_build [] srcRules).outs edgeRules).zero bonds
  have hin : ∀ n, n ∈ adds ([] : List N) (tab_build [] srcRules).zero ↔ ∃ r, HasRule srcRules n r ∧ On [] r := by
    intro n
    rw [mem_adds, t4]
    simp [on_nil]
  refine ⟨ordOk_start hws _, fun z _ => t2 z, ordOk_start hwe _, fun z _ => u2 z, hin, ?_, ?_, ?_, ?_, ?_, ?_, ?_, g3⟩
  · intro a b
    show b ∈ lst ((tab_build (tab_build [] srcRules).outs edgeRules).zero.foldl _ bonds).seq a ↔ _
    rw [g1, u4]
    apply or_congr_right
    constructor <;> (rintro ⟨r, h1, h2⟩; exact ⟨r, h1, by simpa [on_nil, linkStart] using h2⟩)
  · intro a b
    show a ∈ lst ((tab_build (tab_build [] srcRules).outs edgeRules).zero.foldl _ bonds).req b ↔ _
    rw [g2, u4, ← hbal]
    apply or_congr_right
    constructor <;> (rintro ⟨r, h1, h2⟩; exact ⟨r, h1, by simpa [on_nil, linkStart] using h2⟩)
  · intro o
    show o ∈ (tab_build (tab_build [] srcRules).outs edgeRules).outs ↔ _
    rw [u3, t3]
    simp only [List.not_mem_nil, false_or]
    apply or_congr <;>
      (constructor <;> (rintro ⟨k, r, h1, h2, h3⟩; exact ⟨k, r, h1, by simpa [on_nil, linkStart] using h2, h3⟩))
  · rintro n (hn | hn | hn)
    · simp [linkStart] at hn
    · obtain ⟨r, h1, h2⟩ := (hin n).1 hn
      rw [on_nil] at h2
      refine Active.source h1 ?_
      intro z hz
      rw [h2] at hz
      simp at hz
    · simp [linkStart] at hn
  · exact fun n hn => Or.inr (Or.inl hn)
  · intro a ha
    simp [linkStart] at ha
  · intro n _ hn
    simp [linkStart] at hn

/-- the processed nodes are all the active ones when nothing is pending -/
theorem link_complete {st : SG N} (h : LinkInv bonds srcRules edgeRules st) (hp : st.pend = [])
    (hp2 : ∀ n ∈ st.pend2, n ∈ st.sub) (n : N) (hn : Act bonds srcRules edgeRules n) : n ∈ st.sub := by
  have hall : ∀ n, n ∈ st.sub ∨ n ∈ st.pend ∨ n ∈ st.pend2 → n ∈ st.sub := by
    rintro n (hh | hh | hh)
    · exact hh
    · rw [hp] at hh; simp at hh
    · exact hp2 n hh
  induction hn with
  | source hr _ ih => exact hall _ (h.src _ ((h.inputs _).2 ⟨_, hr, ih⟩))
  | bond _ hb ih => exact hall _ (h.clo _ ih _ ((h.seq _ _).2 (Or.inl hb)))
  | edge _ hr _ ih ih' => exact hall _ (h.clo _ ih _ ((h.seq _ _).2 (Or.inr ⟨_, hr, ih'⟩)))

/-! ## the claims -/

/-- **C52.**  Whatever order `set.pop()` takes the nodes in, the analysis returns: as `active` exactly the
nodes which can carry a field; as `inputs_set` exactly the nodes with a source which can be nonzero; in
`seq_full`/`req_full` exactly the bonds and the edges which can be nonzero, as converse relations; as
`outputs_set` exactly the nodes the sources and edges which can be nonzero read. -/
theorem C52_sparsity (pick : List N → N) (hpick : ∀ l, l ≠ [] → pick l ∈ l) (fuel : Nat) (bonds : SR N)
    (hbal : ∀ a b, b ∈ lst bonds.seq a ↔ a ∈ lst bonds.req b)
    (srcRules : Dict N (List (Rule N))) (hws : Dict.WF srcRules)
    (edgeRules : Dict (N × N) (List (Rule N))) (hwe : Dict.WF edgeRules)
    (st : SG N) (h : sparsity pick fuel bonds srcRules edgeRules = some st) :
    (∀ n, n ∈ st.sub ↔ Act bonds srcRules edgeRules n) ∧
    (∀ n, n ∈ st.inputs ↔ ∃ r, HasRule srcRules n r ∧ ∀ z ∈ r.nz, Act bonds srcRules edgeRules z) ∧
    (∀ a b, b ∈ lst st.g.seq a ↔ b ∈ lst bonds.seq a ∨
      ∃ r, HasRule edgeRules (a, b) r ∧ ∀ z ∈ r.nz, Act bonds srcRules edgeRules z) ∧
    (∀ a b, b ∈ lst st.g.seq a ↔ a ∈ lst st.g.req b) ∧
    (∀ o, o ∈ st.outs ↔
      (∃ n r, HasRule srcRules n r ∧ (∀ z ∈ r.nz, Act bonds srcRules edgeRules z) ∧ o ∈ r.req) ∨
      ∃ e r, HasRule edgeRules e r ∧ (∀ z ∈ r.nz, Act bonds srcRules edgeRules z) ∧ o ∈ r.req) := by
  have h' : link_loop pick fuel (linkStart bonds srcRules edgeRules) = some st := h
  obtain ⟨hi, hp, hp2⟩ := link_inv pick hpick hws hwe fuel _ st (start_inv hws hwe hbal) h'
  have hsub : ∀ n, n ∈ st.sub ↔ Act bonds srcRules edgeRules n :=
    fun n => ⟨fun hn => hi.act n (Or.inl hn), link_complete hi hp hp2 n⟩
  have hon : ∀ r, On st.sub r ↔ ∀ z ∈ r.nz, Act bonds srcRules edgeRules z :=
    fun r => forall_congr' fun z => imp_congr_right fun _ => hsub z
  refine ⟨hsub, ?_, ?_, ?_, ?_⟩
  · intro n
    rw [hi.inputs]
    simp only [hon]
  · intro a b
    rw [hi.seq]
    simp only [hon]
  · intro a b
    rw [hi.seq, hi.req]
  · intro o
    rw [hi.outs]
    simp only [hon]

/-- Two runs taking the nodes in different orders agree on every set. -/
theorem C52_order_independent (pick pick' : List N → N) (hpick : ∀ l, l ≠ [] → pick l ∈ l)
    (hpick' : ∀ l, l ≠ [] → pick' l ∈ l) (fuel fuel' : Nat) (bonds : SR N)
    (hbal : ∀ a b, b ∈ lst bonds.seq a ↔ a ∈ lst bonds.req b)
    (srcRules : Dict N (List (Rule N))) (hws : Dict.WF srcRules)
    (edgeRules : Dict (N × N) (List (Rule N))) (hwe : Dict.WF edgeRules)
    (st st' : SG N) (h : sparsity pick fuel bonds srcRules edgeRules = some st)
    (h' : sparsity pick' fuel' bonds srcRules edgeRules = some st') :
    (∀ n, n ∈ st.sub ↔ n ∈ st'.sub) ∧ (∀ n, n ∈ st.inputs ↔ n ∈ st'.inputs) ∧
    (∀ n, n ∈ st.outs ↔ n ∈ st'.outs) ∧ (∀ a b, b ∈ lst st.g.seq a ↔ b ∈ lst st'.g.seq a) ∧
    ∀ a b, a ∈ lst st.g.req b ↔ a ∈ lst st'.g.req b := by
  obtain ⟨a1, a2, a3, a4, a5⟩ := C52_sparsity pick hpick fuel bonds hbal srcRules hws edgeRules hwe st h
  obtain ⟨b1, b2, b3, b4, b5⟩ := C52_sparsity pick' hpick' fuel' bonds hbal srcRules hws edgeRules hwe st' h'
  refine ⟨fun n => (a1 n).trans (b1 n).symm, fun n => (a2 n).trans (b2 n).symm,
    fun n => (a5 n).trans (b5 n).symm, fun a b => (a3 a b).trans (b3 a b).symm, fun a b => ?_⟩
  rw [← a4, ← b4, a3, b3]

theorem uncovered_step (nodes sub : List N) (z : N) (hz : z ∈ nodes) (hs : z ∉ sub) :
    (nodes.filter (· ∉ Graph.sadd sub z)).length < (nodes.filter (· ∉ sub)).length := by
  have hle : ∀ l : List N, (l.filter (· ∉ Graph.sadd sub z)).length ≤ (l.filter (· ∉ sub)).length := by
    intro l
    induction l with
    | nil => simp
    | cons a l ih =>
      rw [List.filter_cons, List.filter_cons]
      by_cases ha : a ∈ sub
      · rw [if_neg (by simpa using (mem_sadd' sub z a).2 (Or.inl ha)), if_neg (by simpa using ha)]
        exact ih
      · rw [if_pos (c := decide (a ∉ sub) = true) (by simpa using ha)]
        split
        · simpa using ih
        · simp only [List.length_cons]
          omega
  induction nodes with
  | nil => simp at hz
  | cons a l ih =>
    rw [List.filter_cons, List.filter_cons]
    rcases List.mem_cons.1 hz with rfl | hz
    · rw [if_neg (by simpa using (mem_sadd' sub z z).2 (Or.inr rfl)), if_pos (by simpa using hs),
        List.length_cons]
      have := hle l
      omega
    · have := ih hz
      by_cases ha : a ∈ sub
      · rw [if_neg (by simpa using (mem_sadd' sub z a).2 (Or.inl ha)), if_neg (by simpa using ha)]
        exact this
      · rw [if_pos (c := decide (a ∉ sub) = true) (by simpa using ha)]
        split
        · simpa using this
        · simp only [List.length_cons]
          omega

theorem link_terminates (pick : List N → N) (hpick : ∀ l, l ≠ [] → pick l ∈ l)
    (hws : Dict.WF srcRules) (hwe : Dict.WF edgeRules) (nodes : List N)
    (hnodes : ∀ n, Act bonds srcRules edgeRules n → n ∈ nodes) (fuel : Nat) (st : SG N)
    (h : LinkInv bonds srcRules edgeRules st)
    (hf : 2 * (nodes.filter (· ∉ st.sub)).length + (if st.pend = [] then 1 else 0) < fuel) :
    ∃ st', link_loop pick fuel st = some st' := by
  induction fuel generalizing st with
  | zero => omega
  | succ fuel ih =>
    unfold link_loop
    by_cases hp : st.pend = []
    · rw [if_pos hp]
      dsimp only
      rw [if_pos hp] at hf
      by_cases hp2 : st.pend2.filter (· ∉ st.sub) = []
      · rw [if_pos hp2]
        exact ⟨_, rfl⟩
      · rw [if_neg hp2]
        apply ih _ (swap_inv h hp _)
        dsimp only
        rw [if_neg hp2]
        omega
    · rw [if_neg hp]
      rw [if_neg hp] at hf
      obtain ⟨hi, hs⟩ := process_inv hws hwe h (hpick _ hp)
      apply ih _ hi
      rw [hs]
      have := uncovered_step nodes st.sub (pick st.pend)
        (hnodes _ (h.act _ (Or.inr (Or.inl (hpick _ hp))))) (h.disj _ (hpick _ hp))
      split <;> omega

/-- The loops end: on a graph with the given nodes (every source, bond target and edge target among them)
`2 n + 2` turns suffice, whatever the order. -/
theorem C52_terminates (pick : List N → N) (hpick : ∀ l, l ≠ [] → pick l ∈ l) (bonds : SR N)
    (hbal : ∀ a b, b ∈ lst bonds.seq a ↔ a ∈ lst bonds.req b)
    (srcRules : Dict N (List (Rule N))) (hws : Dict.WF srcRules)
    (edgeRules : Dict (N × N) (List (Rule N))) (hwe : Dict.WF edgeRules) (nodes : List N)
    (hn1 : ∀ n ∈ Dict.keys srcRules, n ∈ nodes) (hn2 : ∀ a b, b ∈ lst bonds.seq a → b ∈ nodes)
    (hn3 : ∀ e ∈ Dict.keys edgeRules, e.2 ∈ nodes) :
    ∃ st, sparsity pick (2 * nodes.length + 2) bonds srcRules edgeRules = some st := by
  have hkey : ∀ {κ : Type} [DecidableEq κ] {rules : Dict κ (List (Rule N))} {k : κ} {r : Rule N},
      HasRule rules k r → k ∈ Dict.keys rules := by
    intro κ _ rules k r hr
    by_contra hk
    rw [← Dict.get?_eq_none_iff] at hk
    unfold HasRule lst at hr
    rw [hk] at hr
    simp at hr
  refine link_terminates pick hpick hws hwe nodes ?_ _ (linkStart bonds srcRules edgeRules)
    (start_inv hws hwe hbal) ?_
  · intro n hn
    cases hn with
    | source hr _ => exact hn1 _ (hkey hr)
    | bond _ hb => exact hn2 _ _ hb
    | edge _ hr _ => exact hn3 _ (hkey hr)
  · have : (nodes.filter (· ∉ (linkStart bonds srcRules edgeRules).sub)).length ≤ nodes.length :=
      List.length_filter_le _ _
    split <;> omega

/-! ## a concrete case -/

section Examples

/-- bonds `0 → 1` and `0 → 2`, a source at `0`, an edge `2 → 3` waiting for `1`, a source at `6` waiting for
`3`, an edge `4 → 5` waiting for `5` and a source at `7` waiting for `4` and `0`, which stay idle -/
def spBonds : SR Nat := ((SR.mk [] []).add 0 1).add 0 2
def spSrc : Dict Nat (List (Rule Nat)) := [(0, [⟨[], []⟩]), (6, [⟨[3], [3]⟩]), (7, [⟨[4, 0], [4, 0]⟩])]
def spEdge : Dict (Nat × Nat) (List (Rule Nat)) := [((2, 3), [⟨[1], [1, 9]⟩]), ((4, 5), [⟨[5], [5]⟩])]
/-- two ways to pop -/
def popHead (l : List Nat) : Nat := l.headD 0
def popLast (l : List Nat) : Nat := l.getLastD 0

theorem popHead_mem : ∀ l : List Nat, l ≠ [] → popHead l ∈ l := by
  rintro (_ | ⟨a, l⟩) h
  · exact absurd rfl h
  · simp [popHead]

theorem popLast_mem : ∀ l : List Nat, l ≠ [] → popLast l ∈ l := by
  intro l h
  unfold popLast
  rw [List.getLastD_eq_getLast?, List.getLast?_eq_getLast_of_ne_nil h]
  exact List.getLast_mem h

theorem spBonds_bal : ∀ a b, b ∈ lst spBonds.seq a ↔ a ∈ lst spBonds.req b := by
  intro a b
  unfold spBonds
  rw [lst_add_seq, lst_add_seq, lst_add_req, lst_add_req]
  simp [lst]
  omega

/-- the hypotheses of `C52_sparsity` hold and the analysis ends, whichever way the nodes are popped -/
example : (∀ a b, b ∈ lst spBonds.seq a ↔ a ∈ lst spBonds.req b) ∧ Dict.WF spSrc ∧ Dict.WF spEdge ∧
    (sparsity popHead 20 spBonds spSrc spEdge).isSome ∧ (sparsity popLast 20 spBonds spSrc spEdge).isSome :=
  ⟨spBonds_bal, by decide, by decide, by decide +kernel, by decide +kernel⟩

example : (sparsity popHead 20 spBonds spSrc spEdge).map (fun st => (st.sub, st.inputs, st.outs))
    = some ([0, 1, 2, 3, 6], [0, 6], [1, 9, 3]) := by decide +kernel

example : Act spBonds spSrc spEdge 6 := by
  obtain ⟨h, _⟩ := C52_sparsity popHead popHead_mem 20 spBonds spBonds_bal spSrc (by decide) spEdge (by decide)
    _ (show sparsity popHead 20 spBonds spSrc spEdge = some _ from rfl)
  rw [← h]
  decide +kernel

/-- The returned `order`, unlike the sets, depends on the order in which `set.pop()` takes the nodes. -/
theorem C52_order_refuted : ¬ ∀ (pick pick' : List Nat → Nat), (∀ l, l ≠ [] → pick l ∈ l) →
    (∀ l, l ≠ [] → pick' l ∈ l) → ∀ fuel st st',
    sparsity pick fuel spBonds spSrc spEdge = some st → sparsity pick' fuel spBonds spSrc spEdge = some st' →
    st.order = st'.order := by
  intro h
  have := h popHead popLast popHead_mem popLast_mem 20 _ _ rfl rfl
  revert this
  decide +kernel

end Examples

end Inject
