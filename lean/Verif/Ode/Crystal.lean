import Mathlib.Algebra.BigOperators.Group.List.Basic
import Verif.Optics.Model
import Verif.Ode.Couple

/-!
# Model of the nonlinear crystal

Source: `/repo/phasor/optics/nonlinear_crystal.py` l.150-252, `system_setup_coupling`.

A key of an optical port is a record (`Optics.OKey`), optical and classical frequency keys are elements of groups.
`orders okey` are the numbers in `okey.F_dict.items()`.  The internal keys of the integration are the nodes at the input.
Simplifications: exact arithmetic (`n * G / 2` is a rational multiple of `G`); the loss is zero (l.55-62 assert it).
-/

set_option linter.unusedSectionVars false

namespace Ode
open Py Optics

variable {P O K R : Type} [DecidableEq P] [DecidableEq O] [DecidableEq K] [AddCommGroup O] [AddCommGroup K] [CommRing R]
  [Algebra ℚ R] [DecidableEq R]

/-- A node at an optical port. -/
abbrev Node (P O K : Type) := P × OKey O K

/-- What the crystal reads from the system. -/
structure CEnv (P O K R : Type) where
  /-- `port_set_get` -/
  okeys : P → List (OKey O K)
  /-- the numbers in `okey.F_dict.items()` -/
  orders : O → List ℤ
  /-- `symbols.i` -/
  i : R

/-- A `NonlinearCrystal` (l.20-75). -/
structure Crystal (P R : Type) where
  N_ode : ℕ
  nlg : R
  length_mm : R

/-- `dLt`, `in_map` and `out_map` (l.157-159). -/
structure Eqs (P O K R : Type) where
  dLt : Dict (Node P O K) (Lt (Node P O K) R)
  in_map : Dict (Node P O K) (Node P O K)
  out_map : Dict (Node P O K) (Option (Node P O K))

/-- `dLt[k].append(t)` for a `defaultdict(list)` -/
def app {I : Type} [DecidableEq I] (d : Dict I (Lt I R)) (k : I) (t : R × List I) : Dict I (Lt I R) :=
  Dict.set d k ((Dict.get? d k).getD [] ++ [t])

/-- l.168-171 -/
def Crystal.G (env : CEnv P O K R) (e : Crystal P R) (q : Quantum) : R :=
  match q with
  | .lower => env.i * e.nlg * e.length_mm
  | .raise => -env.i * e.nlg * e.length_mm

/-- l.183-196: the key that two keys generate, if their polarizations agree (l.175-177) -/
def kto (k k2 : OKey O K) : OKey O K :=
  if k2.q = k.q then { k with opt := k.opt + k2.opt, cls := k.cls + k2.cls }
  else { k with opt := k.opt - k2.opt, cls := k.cls - k2.cls }

/-- l.206-213: the gain of a product -/
def Crystal.gain (env : CEnv P O K R) (e : Crystal P R) (n : ℤ) (k k2 : OKey O K) : R :=
  if k = k2 then (1 / 2 : ℚ) • (n * e.G env k.q) else n * e.G env k.q

/-- l.173-215 for a pair of keys; `pi` is `port.i` and `po` is `portO.o` -/
def Crystal.pair (env : CEnv P O K R) (e : Crystal P R) (pi po : P) (w : Eqs P O K R) (k k2 : OKey O K) :
    Except Err (Eqs P O K R) :=
  if k.pol ≠ k2.pol then .ok w
  else if kto k k2 ∈ env.okeys po then
    match env.orders (kto k k2).opt with
    | [] => .error .indexError
    | [n] => .ok {
        dLt := app w.dLt (pi, kto k k2) (e.gain env n k k2, [(pi, k2), (pi, k)])
        in_map := Dict.set w.in_map (pi, k) (pi, k)
        out_map := Dict.set w.out_map (pi, kto k k2) (some (po, kto k k2)) }
    | _ => .error .runtime
  else .ok w

/-- l.156-252 for one direction -/
def Crystal.build (env : CEnv P O K R) (e : Crystal P R) (pi po : P) : Except Err (Eqs P O K R) :=
  (env.okeys pi).foldlM (fun w k => (env.okeys pi).foldlM (fun w k2 => e.pair env pi po w k k2) w)
    { dLt := [], in_map := [], out_map := [] }

/-! ## The equations -/

/-- The pairs of keys at the input, in the order of the loops. -/
def pairs (ks : List (OKey O K)) : List (OKey O K × OKey O K) := ks.flatMap fun k => ks.map fun k2 => (k, k2)

theorem mem_pairs {ks : List (OKey O K)} {T : OKey O K × OKey O K} : T ∈ pairs ks ↔ T.1 ∈ ks ∧ T.2 ∈ ks := by
  unfold pairs
  simp only [List.mem_flatMap, List.mem_map]
  constructor
  · rintro ⟨k, hk, k2, hk2, rfl⟩; exact ⟨hk, hk2⟩
  · rintro ⟨h1, h2⟩; exact ⟨T.1, h1, T.2, h2, rfl⟩

theorem build_eq (env : CEnv P O K R) (e : Crystal P R) (pi po : P) :
    e.build env pi po = (pairs (env.okeys pi)).foldlM (fun w T => e.pair env pi po w T.1 T.2)
      { dLt := [], in_map := [], out_map := [] } := by
  unfold Crystal.build pairs
  generalize ({ dLt := [], in_map := [], out_map := [] } : Eqs P O K R) = w
  generalize hL : env.okeys pi = L
  conv_lhs => rw [← hL]
  have : ∀ (l : List (OKey O K)) (w : Eqs P O K R),
      l.foldlM (fun w k => L.foldlM (fun w k2 => e.pair env pi po w k k2) w) w
        = (l.flatMap fun k => L.map fun k2 => (k, k2)).foldlM (fun w T => e.pair env pi po w T.1 T.2) w := by
    intro l
    induction l with
    | nil => intro w; rfl
    | cons k l ih =>
      intro w
      rw [List.foldlM_cons, List.flatMap_cons, List.foldlM_append, List.foldlM_map]
      congr 1
      funext w
      exact ih w
  rw [hL]
  exact this L w

/-- The pairs that generate something. -/
def Joins (env : CEnv P O K R) (po : P) (T : OKey O K × OKey O K) : Prop :=
  T.1.pol = T.2.pol ∧ kto T.1 T.2 ∈ env.okeys po

instance (env : CEnv P O K R) (po : P) (T : OKey O K × OKey O K) : Decidable (Joins env po T) :=
  inferInstanceAs (Decidable (_ ∧ _))

/-- `n` of l.201-204 -/
def ordOf (env : CEnv P O K R) (o : O) : ℤ := (env.orders o).headD 0

/-- All keys at the output are multiples of one base frequency. -/
def Single (env : CEnv P O K R) (po : P) : Prop := ∀ k ∈ env.okeys po, (env.orders k.opt).length = 1

theorem pair_joins {env : CEnv P O K R} {e : Crystal P R} {pi po : P} (hs : Single env po) (w : Eqs P O K R)
    {k k2 : OKey O K} (h : Joins env po (k, k2)) :
    e.pair env pi po w k k2 = .ok {
        dLt := app w.dLt (pi, kto k k2) (e.gain env (ordOf env (kto k k2).opt) k k2, [(pi, k2), (pi, k)])
        in_map := Dict.set w.in_map (pi, k) (pi, k)
        out_map := Dict.set w.out_map (pi, kto k k2) (some (po, kto k k2)) } := by
  unfold Crystal.pair
  rw [if_neg (by simpa using h.1), if_pos h.2]
  have h1 := hs _ h.2
  unfold ordOf
  rcases ho : env.orders (kto k k2).opt with _ | ⟨n, _ | ⟨m, l⟩⟩
  · rw [ho] at h1; simp at h1
  · rfl
  · rw [ho] at h1; simp at h1

theorem pair_skips {env : CEnv P O K R} {e : Crystal P R} {pi po : P} (w : Eqs P O K R) {k k2 : OKey O K}
    (h : ¬ Joins env po (k, k2)) : e.pair env pi po w k k2 = .ok w := by
  unfold Crystal.pair
  by_cases hp : k.pol = k2.pol
  · rw [if_neg (by simpa using hp), if_neg (fun hm => h ⟨hp, hm⟩)]
  · rw [if_pos hp]

theorem app_wf {I : Type} [DecidableEq I] {d : Dict I (Lt I R)} (h : Dict.WF d) (k : I) (t : R × List I) :
    Dict.WF (app d k t) := Dict.WF_set h _ _

theorem rhs_app {I : Type} [DecidableEq I] (d : Dict I (Lt I R)) (k : I) (t : R × List I) (k' : I) :
    rhs (app d k t) k' = rhs d k' ++ if k = k' then [t] else [] := by
  unfold rhs app
  rw [Dict.get?_set]
  split_ifs with h
  · subst h; simp
  · simp

theorem mentions_app {I : Type} [DecidableEq I] {d : Dict I (Lt I R)} (hd : Dict.WF d) (k : I) (t : R × List I) (k' : I) :
    Mentions (app d k t) k' ↔ Mentions d k' ∨ k' = k ∨ k' ∈ t.2 := by
  have key : ∀ {d : Dict I (Lt I R)}, Dict.WF d → ∀ k', Mentions d k' ↔ k' ∈ Dict.keys d ∨ ∃ j, ∃ t ∈ rhs d j, k' ∈ t.2 := by
    intro d hd k'
    unfold Mentions rhs
    constructor
    · rintro ⟨T, hT, h | ⟨t, ht, h⟩⟩
      · exact Or.inl (h ▸ List.mem_map.2 ⟨T, hT, rfl⟩)
      · refine Or.inr ⟨T.1, t, ?_, h⟩
        rw [Dict.get?_of_mem hd (k := T.1) (v := T.2) hT]; exact ht
    · rintro (h | ⟨j, t, ht, h⟩)
      · obtain ⟨T, hT, rfl⟩ := List.mem_map.1 h
        exact ⟨T, hT, Or.inl rfl⟩
      · cases hg : Dict.get? d j with
        | none => rw [hg] at ht; simp at ht
        | some lt =>
          rw [hg, Option.getD_some] at ht
          exact ⟨(j, lt), Dict.mem_of_get? hg, Or.inr ⟨t, ht, h⟩⟩
  rw [key (app_wf hd k t), key hd]
  have hk : k' ∈ Dict.keys (app d k t) ↔ k' ∈ Dict.keys d ∨ k' = k := by
    rw [Dict.mem_keys_iff, Dict.mem_keys_iff]
    unfold app
    rw [Dict.get?_set]
    split_ifs with h
    · simp [h]
    · simp [Ne.symm h]
  rw [hk]
  constructor
  · rintro ((h | h) | ⟨j, t', ht', h⟩)
    · exact Or.inl (Or.inl h)
    · exact Or.inr (Or.inl h)
    · rw [rhs_app, List.mem_append] at ht'
      rcases ht' with ht' | ht'
      · exact Or.inl (Or.inr ⟨j, t', ht', h⟩)
      · split_ifs at ht' with hj
        · rw [List.mem_singleton] at ht'; subst ht'; exact Or.inr (Or.inr h)
        · simp at ht'
  · rintro ((h | ⟨j, t', ht', h⟩) | h | h)
    · exact Or.inl (Or.inl h)
    · exact Or.inr ⟨j, t', by rw [rhs_app]; exact List.mem_append_left _ ht', h⟩
    · exact Or.inl (Or.inr h)
    · exact Or.inr ⟨k, t, by rw [rhs_app, if_pos rfl]; simp, h⟩

/-- What `build` makes: right hand sides, maps and the keys that occur. -/
theorem build_spec {env : CEnv P O K R} (e : Crystal P R) {pi po : P} (hs : Single env po) :
    ∃ w, e.build env pi po = .ok w ∧ Dict.WF w.dLt ∧
      (∀ k, rhs w.dLt (pi, k) = ((pairs (env.okeys pi)).filter fun T => Joins env po T ∧ kto T.1 T.2 = k).map
        fun T => (e.gain env (ordOf env k.opt) T.1 T.2, [(pi, T.2), (pi, T.1)])) ∧
      (∀ n, Dict.get? w.in_map n = if n.1 = pi ∧ ∃ T ∈ pairs (env.okeys pi), Joins env po T ∧ T.1 = n.2 then some n else none) ∧
      (∀ n, Dict.get? w.out_map n = if n.1 = pi ∧ ∃ T ∈ pairs (env.okeys pi), Joins env po T ∧ kto T.1 T.2 = n.2
        then some (some (po, n.2)) else none) ∧
      (∀ n, Mentions w.dLt n ↔ n.1 = pi ∧ ∃ T ∈ pairs (env.okeys pi), Joins env po T ∧
        (n.2 = T.1 ∨ n.2 = T.2 ∨ n.2 = kto T.1 T.2)) := by
  rw [build_eq]
  generalize pairs (env.okeys pi) = L
  have main : ∀ (L pre : List (OKey O K × OKey O K)) (w : Eqs P O K R), Dict.WF w.dLt →
      (∀ k, rhs w.dLt (pi, k) = (pre.filter fun T => Joins env po T ∧ kto T.1 T.2 = k).map
        fun T => (e.gain env (ordOf env k.opt) T.1 T.2, [(pi, T.2), (pi, T.1)])) →
      (∀ n, Dict.get? w.in_map n = if n.1 = pi ∧ ∃ T ∈ pre, Joins env po T ∧ T.1 = n.2 then some n else none) →
      (∀ n, Dict.get? w.out_map n = if n.1 = pi ∧ ∃ T ∈ pre, Joins env po T ∧ kto T.1 T.2 = n.2
        then some (some (po, n.2)) else none) →
      (∀ n, Mentions w.dLt n ↔ n.1 = pi ∧ ∃ T ∈ pre, Joins env po T ∧ (n.2 = T.1 ∨ n.2 = T.2 ∨ n.2 = kto T.1 T.2)) →
      ∃ w', L.foldlM (fun w T => e.pair env pi po w T.1 T.2) w = .ok w' ∧ Dict.WF w'.dLt ∧
      (∀ k, rhs w'.dLt (pi, k) = ((pre ++ L).filter fun T => Joins env po T ∧ kto T.1 T.2 = k).map
        fun T => (e.gain env (ordOf env k.opt) T.1 T.2, [(pi, T.2), (pi, T.1)])) ∧
      (∀ n, Dict.get? w'.in_map n = if n.1 = pi ∧ ∃ T ∈ pre ++ L, Joins env po T ∧ T.1 = n.2 then some n else none) ∧
      (∀ n, Dict.get? w'.out_map n = if n.1 = pi ∧ ∃ T ∈ pre ++ L, Joins env po T ∧ kto T.1 T.2 = n.2
        then some (some (po, n.2)) else none) ∧
      (∀ n, Mentions w'.dLt n ↔ n.1 = pi ∧ ∃ T ∈ pre ++ L, Joins env po T ∧
        (n.2 = T.1 ∨ n.2 = T.2 ∨ n.2 = kto T.1 T.2)) := by
    intro L
    induction L with
    | nil =>
      intro pre w h0 h1 h2 h3 h4
      rw [List.append_nil]
      exact ⟨w, rfl, h0, h1, h2, h3, h4⟩
    | cons T L ih =>
      intro pre w h0 h1 h2 h3 h4
      rw [List.foldlM_cons]
      have hassoc : pre ++ T :: L = (pre ++ [T]) ++ L := by simp
      rw [hassoc]
      by_cases hT : Joins env po T
      · rw [pair_joins hs w hT]
        refine ih (pre ++ [T]) _ (app_wf h0 _ _) ?_ ?_ ?_ ?_
        · intro k
          dsimp only
          rw [rhs_app, h1, List.filter_append, List.map_append]
          congr 1
          by_cases hk : kto T.1 T.2 = k
          · subst hk; simp [hT]
          · rw [if_neg (by simpa using hk)]; simp [hk]
        · intro n
          dsimp only
          rw [Dict.get?_set]
          by_cases hn : (pi, T.1) = n
          · subst hn
            rw [if_pos rfl, if_pos ⟨rfl, T, by simp, hT, rfl⟩]
          · rw [if_neg hn, h2]
            refine if_congr (and_congr_right fun hp => ?_) rfl rfl
            constructor
            · rintro ⟨T', hT', h⟩; exact ⟨T', List.mem_append_left _ hT', h⟩
            · rintro ⟨T', hT', hj, h⟩
              rcases List.mem_append.1 hT' with hT' | hT'
              · exact ⟨T', hT', hj, h⟩
              · rw [List.mem_singleton] at hT'; subst hT'
                exact absurd (Prod.ext hp.symm h) hn
        · intro n
          dsimp only
          rw [Dict.get?_set]
          by_cases hn : (pi, kto T.1 T.2) = n
          · subst hn
            rw [if_pos rfl, if_pos ⟨rfl, T, by simp, hT, rfl⟩]
          · rw [if_neg hn, h3]
            refine if_congr (and_congr_right fun hp => ?_) rfl rfl
            constructor
            · rintro ⟨T', hT', h⟩; exact ⟨T', List.mem_append_left _ hT', h⟩
            · rintro ⟨T', hT', hj, h⟩
              rcases List.mem_append.1 hT' with hT' | hT'
              · exact ⟨T', hT', hj, h⟩
              · rw [List.mem_singleton] at hT'; subst hT'
                exact absurd (Prod.ext hp.symm h) hn
        · intro n
          dsimp only
          rw [mentions_app h0, h4]
          constructor
          · rintro (⟨hp, T', hT', h⟩ | h | h)
            · exact ⟨hp, T', List.mem_append_left _ hT', h⟩
            · subst h; exact ⟨rfl, T, by simp, hT, Or.inr (Or.inr rfl)⟩
            · simp only [List.mem_cons, List.not_mem_nil, or_false] at h
              rcases h with h | h
              · subst h; exact ⟨rfl, T, by simp, hT, Or.inr (Or.inl rfl)⟩
              · subst h; exact ⟨rfl, T, by simp, hT, Or.inl rfl⟩
          · rintro ⟨hp, T', hT', hj, h⟩
            rcases List.mem_append.1 hT' with hT' | hT'
            · exact Or.inl ⟨hp, T', hT', hj, h⟩
            · rw [List.mem_singleton] at hT'; subst hT'
              right
              rcases h with h | h | h
              · right; simp only [List.mem_cons, List.not_mem_nil, or_false]; right; exact Prod.ext hp h
              · right; simp only [List.mem_cons, List.not_mem_nil, or_false]; left; exact Prod.ext hp h
              · left; exact Prod.ext hp h
      · rw [pair_skips w hT]
        have hmem : ∀ Q : OKey O K × OKey O K → Prop,
            (∃ T' ∈ pre ++ [T], Joins env po T' ∧ Q T') ↔ ∃ T' ∈ pre, Joins env po T' ∧ Q T' := by
          intro Q
          constructor
          · rintro ⟨T', hT', hj, h⟩
            rcases List.mem_append.1 hT' with hT' | hT'
            · exact ⟨T', hT', hj, h⟩
            · rw [List.mem_singleton] at hT'; subst hT'; exact absurd hj hT
          · rintro ⟨T', hT', h⟩; exact ⟨T', List.mem_append_left _ hT', h⟩
        refine ih (pre ++ [T]) w h0 ?_ ?_ ?_ ?_
        · intro k
          rw [h1, List.filter_append]
          simp [hT]
        · intro n; rw [h2]; exact if_congr (and_congr_right fun _ => (hmem _).symm) rfl rfl
        · intro n; rw [h3]; exact if_congr (and_congr_right fun _ => (hmem _).symm) rfl rfl
        · intro n; rw [h4]; exact and_congr_right fun _ => (hmem _).symm
  obtain ⟨w, hw⟩ := main L [] { dLt := [], in_map := [], out_map := [] } Dict.WF_nil (by intro k; rfl) (by intro n; simp)
    (by intro n; simp) (by intro n; simp [Mentions])
  exact ⟨w, hw⟩

/-! ## Closed sets of keys -/

/-- Input and output carry the same keys, in conjugate pairs. -/
structure Closed (env : CEnv P O K R) (pi po : P) : Prop where
  nodup : (env.okeys pi).Nodup
  same : ∀ k, k ∈ env.okeys po ↔ k ∈ env.okeys pi
  conj : ∀ k ∈ env.okeys pi, k.conj ∈ env.okeys pi
  single : Single env po

theorem Quantum.conj_conj (q : Quantum) : q.conj.conj = q := by cases q <;> rfl

theorem Quantum.conj_ne (q : Quantum) : q.conj ≠ q := by cases q <;> simp [Quantum.conj]

theorem kto_of_eq {k k2 : OKey O K} (h : k2.q = k.q) :
    kto k k2 = { k with opt := k.opt + k2.opt, cls := k.cls + k2.cls } := if_pos h

theorem kto_of_ne {k k2 : OKey O K} (h : k2.q ≠ k.q) :
    kto k k2 = { k with opt := k.opt - k2.opt, cls := k.cls - k2.cls } := if_neg h

@[simp] theorem kto_q (k k2 : OKey O K) : (kto k k2).q = k.q := by unfold kto; split_ifs <;> rfl

@[simp] theorem kto_pol (k k2 : OKey O K) : (kto k k2).pol = k.pol := by unfold kto; split_ifs <;> rfl

/-- Taking back what was generated. -/
theorem kto_undo (k k2 : OKey O K) : kto (kto k k2) k2.conj = k := by
  by_cases h : k2.q = k.q
  · rw [kto_of_eq h, kto_of_ne (by simp only [OKey.conj]; rw [h]; exact Quantum.conj_ne _)]
    obtain ⟨a, b, c, d⟩ := k
    simp [OKey.conj]
  · have h' : k2.q.conj = k.q := by
      cases hk : k.q <;> cases hk2 : k2.q <;> simp_all [Quantum.conj]
    rw [kto_of_ne h, kto_of_eq (by simpa [OKey.conj] using h')]
    obtain ⟨a, b, c, d⟩ := k
    simp [OKey.conj]

/-- The second factor as the first one. -/
theorem kto_swap {k k2 : OKey O K} (hp : k.pol = k2.pol) :
    (k2.q = k.q → kto k2 k = kto k k2) ∧ (k2.q ≠ k.q → kto k2 (kto k k2).conj = k.conj) := by
  constructor
  · intro h
    rw [kto_of_eq h, kto_of_eq h.symm]
    obtain ⟨a, b, c, d⟩ := k
    obtain ⟨a', b', c', d'⟩ := k2
    simp only at h hp
    subst h; subst hp
    simp only [add_comm]
  · intro h
    have h' : k.q.conj = k2.q := by
      cases hk : k.q <;> cases hk2 : k2.q <;> simp_all [Quantum.conj]
    rw [kto_of_ne h, kto_of_eq (by simpa [OKey.conj] using h')]
    obtain ⟨a, b, c, d⟩ := k
    obtain ⟨a', b', c', d'⟩ := k2
    simp only at h' hp
    subst h'; subst hp
    simp [OKey.conj]

variable {env : CEnv P O K R} {pi po : P}

theorem Closed.undo (hc : Closed env pi po) {T : OKey O K × OKey O K} (hT : T ∈ pairs (env.okeys pi))
    (hj : Joins env po T) :
    (kto T.1 T.2, T.2.conj) ∈ pairs (env.okeys pi) ∧ Joins env po (kto T.1 T.2, T.2.conj) := by
  obtain ⟨h1, h2⟩ := mem_pairs.1 hT
  refine ⟨mem_pairs.2 ⟨(hc.same _).1 hj.2, hc.conj _ h2⟩, ?_, ?_⟩
  · simp only [kto_pol, OKey.conj]; exact hj.1
  · rw [kto_undo]; exact (hc.same _).2 h1

theorem Closed.swap (hc : Closed env pi po) {T : OKey O K × OKey O K} (hT : T ∈ pairs (env.okeys pi))
    (hj : Joins env po T) : ∃ k, (T.2, k) ∈ pairs (env.okeys pi) ∧ Joins env po (T.2, k) := by
  obtain ⟨h1, h2⟩ := mem_pairs.1 hT
  obtain ⟨e1, e2⟩ := kto_swap hj.1
  by_cases h : T.2.q = T.1.q
  · refine ⟨T.1, mem_pairs.2 ⟨h2, h1⟩, hj.1.symm, ?_⟩
    rw [e1 h]; exact hj.2
  · refine ⟨(kto T.1 T.2).conj, mem_pairs.2 ⟨h2, hc.conj _ ((hc.same _).1 hj.2)⟩, ?_, ?_⟩
    · simp only [kto_pol, OKey.conj]; exact hj.1.symm
    · rw [e2 h]; exact (hc.same _).2 (hc.conj _ h1)

/-- Whatever takes part is read at the input and written at the output. -/
theorem Closed.part (hc : Closed env pi po) {k : OKey O K}
    (h : ∃ T ∈ pairs (env.okeys pi), Joins env po T ∧ (k = T.1 ∨ k = T.2 ∨ k = kto T.1 T.2)) :
    (∃ T ∈ pairs (env.okeys pi), Joins env po T ∧ T.1 = k) ∧
      ∃ T ∈ pairs (env.okeys pi), Joins env po T ∧ kto T.1 T.2 = k := by
  have first : ∀ T ∈ pairs (env.okeys pi), Joins env po T →
      (∃ T' ∈ pairs (env.okeys pi), Joins env po T' ∧ T'.1 = T.1) ∧
      ∃ T' ∈ pairs (env.okeys pi), Joins env po T' ∧ kto T'.1 T'.2 = T.1 := by
    intro T hT hj
    obtain ⟨h1, h2⟩ := hc.undo hT hj
    exact ⟨⟨T, hT, hj, rfl⟩, _, h1, h2, kto_undo _ _⟩
  obtain ⟨T, hT, hj, rfl | rfl | rfl⟩ := h
  · exact first T hT hj
  · obtain ⟨k', h1, h2⟩ := hc.swap hT hj
    exact first _ h1 h2
  · obtain ⟨h1, h2⟩ := hc.undo hT hj
    exact ⟨⟨_, h1, h2, rfl⟩, T, hT, hj, rfl⟩

/-- The maps of the crystal know every key of its equations. -/
theorem Closed.mapped (hc : Closed env pi po) {e : Crystal P R} {w : Eqs P O K R} (hw : e.build env pi po = .ok w)
    {pks : List (Node P O K)} (hK : Keyed w.dLt pks) :
    Mapped pks w.in_map w.out_map id fun n => some (po, n.2) := by
  obtain ⟨w', hw', -, -, h3, h4, h5⟩ := build_spec e (pi := pi) hc.single
  rw [hw] at hw'
  injection hw' with hw'
  subst hw'
  have hin : ∀ n ∈ pks, n.1 = pi ∧ ∃ T ∈ pairs (env.okeys pi), Joins env po T ∧
      (n.2 = T.1 ∨ n.2 = T.2 ∨ n.2 = kto T.1 T.2) := fun n hn => (h5 n).1 ((hK.mem n).1 hn)
  refine ⟨?_, ?_, fun _ _ _ _ h => h, ?_⟩
  · intro n hn
    obtain ⟨hp, h⟩ := hin n hn
    rw [h3, if_pos ⟨hp, (hc.part h).1⟩]; rfl
  · intro n hn
    obtain ⟨hp, h⟩ := hin n hn
    rw [h4, if_pos ⟨hp, (hc.part h).2⟩]
  · intro n hn n' hn' q hq hq'
    have e1 := Option.some.inj hq
    have e2 := Option.some.inj hq'
    refine Prod.ext ((hin n hn).1.trans (hin n' hn').1.symm) ?_
    exact (Prod.ext_iff.1 (e1.trans e2.symm)).2

/-- The right hand side of the crystal as a sum over the pairs. -/
theorem build_poly (hs : Single env po) {e : Crystal P R} {w : Eqs P O K R} (hw : e.build env pi po = .ok w)
    (k : OKey O K) (x : Node P O K → R) :
    poly (rhs w.dLt (pi, k)) x = ((pairs (env.okeys pi)).map fun T =>
      if Joins env po T ∧ kto T.1 T.2 = k then
        e.gain env (ordOf env k.opt) T.1 T.2 * (x (pi, T.2) * x (pi, T.1)) else 0).sum := by
  obtain ⟨w', hw', -, h2, -, -, -⟩ := build_spec e (pi := pi) hs
  rw [hw] at hw'
  injection hw' with hw'
  subst hw'
  rw [h2]
  induction pairs (env.okeys pi) with
  | nil => rfl
  | cons T L ih =>
    rw [List.map_cons, List.sum_cons, ← ih, List.filter_cons]
    by_cases h : Joins env po T ∧ kto T.1 T.2 = k
    · rw [if_pos (by simpa using h), if_pos h, List.map_cons, poly_cons]
      simp
    · rw [if_neg (by simpa using h), if_neg h, zero_add]

end Ode
