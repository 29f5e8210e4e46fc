import Verif.Dag.PivotSol

/-! # The loops of the Householder step -/

set_option linter.unusedSectionVars false

namespace Dag
open Py Graph

variable {M : Type} {V : Type} [DecidableEq M] [Field V] [DecidableEq V]

theorem set_append {K X : Type} [DecidableEq K] : ∀ (d : Dict K X) (k : K) (v : X), k ∉ Dict.keys d →
    Dict.set d k v = d ++ [(k, v)] := by
  intro d
  induction d with
  | nil => intro k v _; rfl
  | cons kv d ih =>
    intro k v h
    have h1 : kv.1 ≠ k := fun e => h (by simp [Dict.keys, e])
    have h2 : k ∉ Dict.keys d := fun e => h (by simp only [Dict.keys, List.map_cons, List.mem_cons]; exact Or.inr e)
    rw [Dict.set]
    simp only [h1, if_false, List.cons_append]
    rw [ih k v h2]

/-- A dictionary given by a function on a list of keys. -/
def tab (L : List M) (f : M → V) : Dict M V := L.map (fun k => (k, f k))

theorem keys_tab (L : List M) (f : M → V) : Dict.keys (tab L f) = L := by
  simp [Dict.keys, tab, Function.comp_def]

theorem tab_append (L : List M) (f : M → V) (k : M) (hk : k ∉ L) : Dict.set (tab L f) k (f k) = tab (L ++ [k]) f := by
  rw [set_append _ _ _ (by rw [keys_tab]; exact hk)]
  simp [tab]

theorem tab_congr {L : List M} {f g : M → V} (h : ∀ k ∈ L, f k = g k) : tab L f = tab L g := by
  unfold tab
  apply List.map_congr_left
  intro k hk
  rw [h k hk]

/-- `Σ f` over a list. -/
def lsum (L : List M) (f : M → V) : V := (L.map f).sum

@[simp] theorem lsum_nil (f : M → V) : lsum [] f = 0 := rfl
@[simp] theorem lsum_cons (k : M) (L : List M) (f : M → V) : lsum (k :: L) f = f k + lsum L f := by simp [lsum]
theorem lsum_append (L L' : List M) (f : M → V) : lsum (L ++ L') f = lsum L f + lsum L' f := by simp [lsum]
theorem lsum_congr {L : List M} {f g : M → V} (h : ∀ k ∈ L, f k = g k) : lsum L f = lsum L g := by
  unfold lsum
  rw [List.map_congr_left h]

theorem hhFrom_spec (A : Alg V) (into : M) (d : D M V) : ∀ (F pre : List M) (s : V),
    (∀ k ∈ F, (Dict.get? d.em (k, into)).isSome) → (pre ++ F).Nodup →
    hhFrom A into d F (s, tab pre (fun k => ev d k into)) =
      .ok (s + lsum F (fun k => A.abssq (ev d k into)), tab (pre ++ F) (fun k => ev d k into)) := by
  intro F
  induction F with
  | nil => intro pre s _ _; simp [hhFrom]
  | cons k ks ih =>
    intro pre s hv hnd
    obtain ⟨v, hv'⟩ := Option.isSome_iff_exists.mp (hv k (by simp))
    have hev : ev d k into = v := by unfold ev; rw [hv']; rfl
    have hk : k ∉ pre := by
      rw [List.nodup_append] at hnd
      exact fun h => hnd.2.2 k h k (by simp) rfl
    rw [hhFrom, get_ok hv']
    simp only [bind, Except.bind]
    rw [← hev, tab_append _ (fun k => ev d k into) _ hk, ih (pre ++ [k]) _ (fun q hq => hv q (List.mem_cons_of_mem _ hq))
      (by rw [List.append_assoc]; exact hnd), List.append_assoc]
    simp [add_assoc]

theorem hhGen_spec (A : Alg V) (d : D M V) (f : M) (R : List M) (hv : ∀ k ∈ R, (Dict.get? d.em (k, f)).isSome)
    (uf : M → V) : ∀ (L : List M) (g : V), hhGen A d f R (tab L uf) g =
      .ok (g + lsum L (fun k => if k ∈ R then A.conj (uf k) * ev d k f else 0)) := by
  intro L
  induction L with
  | nil => intro g; simp [tab, hhGen]
  | cons k ks ih =>
    intro g
    show hhGen A d f R ((k, uf k) :: tab ks uf) g = _
    rw [hhGen]
    by_cases hk : k ∈ R
    · obtain ⟨v, hv'⟩ := Option.isSome_iff_exists.mp (hv k hk)
      have hev : ev d k f = v := by unfold ev; rw [hv']; rfl
      rw [if_pos hk, get_ok hv']
      simp only [bind, Except.bind]
      rw [ih, lsum_cons, if_pos hk, hev, add_assoc]
    · rw [if_neg hk, ih, lsum_cons, if_neg hk, zero_add]

theorem hhGens_spec (A : Alg V) (d : D M V) (L : List M) (uf : M → V) : ∀ (rq : Dict M (List M)) (acc : Dict M V),
    Dict.WF rq → (∀ f R, (f, R) ∈ rq → ∀ k ∈ R, (Dict.get? d.em (k, f)).isSome) →
    ∃ acc', hhGens A d (tab L uf) rq acc = .ok acc' ∧ (Dict.WF acc → Dict.WF acc') ∧
      ∀ f, Dict.get? acc' f = match Dict.get? rq f with
        | none => Dict.get? acc f
        | some R =>
          if lsum L (fun k => if k ∈ R then A.conj (uf k) * ev d k f else 0) ≠ 0 then
            some (lsum L (fun k => if k ∈ R then A.conj (uf k) * ev d k f else 0)) else Dict.get? acc f := by
  intro rq
  induction rq with
  | nil => intro acc _ _; exact ⟨acc, rfl, id, fun f => rfl⟩
  | cons fr rest ih =>
    intro acc hwf hv
    obtain ⟨f, R⟩ := fr
    have hwf' : f ∉ Dict.keys rest ∧ Dict.WF rest := by simpa [Dict.WF, Dict.keys] using hwf
    have hg := hhGen_spec A d f R (hv f R (by simp)) uf L 0
    rw [zero_add] at hg
    set gen := lsum L (fun k => if k ∈ R then A.conj (uf k) * ev d k f else 0) with hgen
    obtain ⟨acc', h1, h2, h3⟩ := ih (if gen ≠ 0 then Dict.set acc f gen else acc) hwf'.2
      (fun f' R' h => hv f' R' (List.mem_cons_of_mem _ h))
    refine ⟨acc', ?_, ?_, ?_⟩
    · rw [hhGens, hg]
      exact h1
    · intro hw
      apply h2
      split
      · exact Dict.WF_set hw _ _
      · exact hw
    · intro f'
      rw [h3, Dict.get?_cons]
      dsimp only
      by_cases hf : f = f'
      · subst hf
        have hn : Dict.get? rest f = none := (Dict.get?_eq_none_iff _ _).2 hwf'.1
        rw [hn, if_pos rfl]
        dsimp only
        rw [← hgen]
        by_cases hz : gen ≠ 0
        · rw [if_pos hz, if_pos hz, Dict.get?_set_self]
        · rw [if_neg hz, if_neg hz]
      · rw [if_neg hf]
        have : Dict.get? (if gen ≠ 0 then Dict.set acc f gen else acc) f' = Dict.get? acc f' := by
          split
          · exact Dict.get?_set_ne _ _ hf
          · rfl
        rw [this]

/-- The value of an internal edge, 0 when it is not listed. -/
def sv (d : D M V) (a b : M) : V := if b ∈ at' d.seq a then ev d a b else 0

/-- The entries in `P` are updated by `- 2 u g`. -/
structure Ap (P : M → M → Prop) (u g : M → V) (d d' : D M V) : Prop where
  seq : ∀ a b, b ∈ at' d'.seq a ↔ b ∈ at' d.seq a ∨ P a b
  req : ∀ a b, b ∈ at' d'.req a ↔ b ∈ at' d.req a ∨ P b a
  alpha : d'.alpha = d.alpha
  beta : d'.beta = d.beta
  em1 : ∀ a b, P a b → Dict.get? d'.em (a, b) = some (sv d a b - 2 * u a * g b)
  em0 : ∀ a b, ¬ P a b → Dict.get? d'.em (a, b) = Dict.get? d.em (a, b)
  hs : ∀ a, Dict.has d'.seq a = true → Dict.has d.seq a = true ∨ ∃ b, P a b
  hs' : ∀ a, Dict.has d.seq a = true → Dict.has d'.seq a = true
  hr : ∀ a, Dict.has d.req a = true → Dict.has d'.req a = true
  ls : LD d.seq → LD d'.seq
  lr : LD d.req → LD d'.req

theorem Ap.refl (u g : M → V) (d : D M V) : Ap (fun _ _ => False) u g d d := by
  constructor <;> simp

theorem Ap.congr {P Q : M → M → Prop} {u g : M → V} {d d' : D M V} (h : Ap P u g d d') (e : ∀ a b, P a b ↔ Q a b) :
    Ap Q u g d d' := by
  have : P = Q := by funext a b; exact propext (e a b)
  rw [← this]; exact h

theorem Ap.comp {P1 P2 : M → M → Prop} {u g : M → V} {d d1 d2 : D M V} (h1 : Ap P1 u g d d1) (h2 : Ap P2 u g d1 d2)
    (dis : ∀ a b, P2 a b → ¬ P1 a b) : Ap (fun a b => P1 a b ∨ P2 a b) u g d d2 := by
  have hsv : ∀ a b, ¬ P1 a b → sv d1 a b = sv d a b := by
    intro a b h
    unfold sv ev
    rw [h1.em0 a b h]
    simp only [h1.seq a b, h, or_false]
  constructor
  · intro a b; rw [h2.seq, h1.seq]; tauto
  · intro a b; rw [h2.req, h1.req]; tauto
  · rw [h2.alpha, h1.alpha]
  · rw [h2.beta, h1.beta]
  · intro a b h
    by_cases hp : P2 a b
    · rw [h2.em1 a b hp, hsv a b (dis a b hp)]
    · rw [h2.em0 a b hp, h1.em1 a b (h.resolve_right hp)]
  · intro a b h
    rw [h2.em0 a b (fun q => h (Or.inr q)), h1.em0 a b (fun q => h (Or.inl q))]
  · intro a h
    rcases h2.hs a h with h | ⟨b, hb⟩
    · rcases h1.hs a h with h | ⟨b, hb⟩
      · exact Or.inl h
      · exact Or.inr ⟨b, Or.inl hb⟩
    · exact Or.inr ⟨b, Or.inr hb⟩
  · exact fun a h => h2.hs' a (h1.hs' a h)
  · exact fun a h => h2.hr a (h1.hr a h)
  · exact fun h => h2.ls (h1.ls h)
  · exact fun h => h2.lr (h1.lr h)

/-- Mirrored adjacency and listed internal edges valued. -/
structure MV (d : D M V) : Prop where
  mir : ∀ r s, s ∈ at' d.seq r ↔ r ∈ at' d.req s
  val : ∀ r s, s ∈ at' d.seq r → (Dict.get? d.em (r, s)).isSome

theorem Ap.mv {P : M → M → Prop} {u g : M → V} {d d' : D M V} (h : Ap P u g d d') (hd : MV d) : MV d' := by
  constructor
  · intro r s; rw [h.seq, h.req, hd.mir]
  · intro r s hl
    by_cases hp : P r s
    · rw [h.em1 r s hp]; rfl
    · rw [h.em0 r s hp]
      exact hd.val r s (((h.seq r s).mp hl).resolve_right hp)

theorem hhApply1_spec (f : M) (g : M → V) (u : M → V) : ∀ (L : List M) (d : D M V), L.Nodup → MV d →
    ∃ d', hhApply1 f (g f) (tab L u) d = .ok d' ∧ Ap (fun a b => a ∈ L ∧ b = f) u g d d' := by
  intro L
  induction L with
  | nil => intro d _ _; exact ⟨d, rfl, (Ap.refl _ _ _).congr (by simp)⟩
  | cons k ks ih =>
    intro d hnd hmv
    obtain ⟨hk, hnd'⟩ := List.nodup_cons.mp hnd
    have step : ∃ d1, hhApply1 f (g f) (tab (k :: ks) u) d = hhApply1 f (g f) (tab ks u) d1 ∧
        Ap (fun a b => a = k ∧ b = f) u g d d1 := by
      show ∃ d1, hhApply1 f (g f) ((k, u k) :: tab ks u) d = _ ∧ _
      rw [hhApply1]
      by_cases hl : f ∈ at' d.seq k
      · obtain ⟨v, hv'⟩ := Option.isSome_iff_exists.mp (hmv.val k f hl)
        have hev : ev d k f = v := by unfold ev; rw [hv']; rfl
        refine ⟨{ d with em := Dict.set d.em (k, f) (v - 2 * u k * g f) }, ?_, ?_⟩
        · rw [if_pos hl, get_ok hv']
          rfl
        · constructor
          · intro a b
            refine ⟨Or.inl, fun h => h.elim id ?_⟩
            rintro ⟨rfl, rfl⟩
            exact hl
          · intro a b
            refine ⟨Or.inl, fun h => h.elim id ?_⟩
            rintro ⟨rfl, rfl⟩
            exact (hmv.mir _ _).mp hl
          · rfl
          · rfl
          · rintro a b ⟨rfl, rfl⟩
            show Dict.get? (Dict.set d.em (a, b) _) (a, b) = _
            rw [Dict.get?_set_self]
            unfold sv
            rw [if_pos hl, hev]
          · intro a b h
            show Dict.get? (Dict.set d.em (k, f) _) (a, b) = _
            rw [Dict.get?_set_ne]
            intro e
            rw [Prod.mk.injEq] at e
            exact h ⟨e.1.symm, e.2.symm⟩
          · exact fun a h => Or.inl h
          · exact fun a h => h
          · exact fun a h => h
          · exact id
          · exact id
      · refine ⟨{ d with em := Dict.set d.em (k, f) (-2 * u k * g f), seq := ins d.seq k f, req := ins d.req f k }, ?_, ?_⟩
        · rw [if_neg hl]
        · constructor
          · intro a b
            show b ∈ at' (ins d.seq k f) a ↔ _
            rw [mem_ins]
            have : k = a ↔ a = k := eq_comm
            rw [this]
          · intro a b
            show b ∈ at' (ins d.req f k) a ↔ _
            rw [mem_ins]
            have : f = a ↔ a = f := eq_comm
            rw [this]
            tauto
          · rfl
          · rfl
          · rintro a b ⟨rfl, rfl⟩
            show Dict.get? (Dict.set d.em (a, b) _) (a, b) = _
            rw [Dict.get?_set_self]
            unfold sv
            rw [if_neg hl]
            congr 1
            ring
          · intro a b h
            show Dict.get? (Dict.set d.em (k, f) _) (a, b) = _
            rw [Dict.get?_set_ne]
            intro e
            rw [Prod.mk.injEq] at e
            exact h ⟨e.1.symm, e.2.symm⟩
          · intro a h
            rcases (has_ins _ _ _ _).mp h with rfl | h
            · exact Or.inr ⟨f, rfl, rfl⟩
            · exact Or.inl h
          · exact fun a h => (has_ins _ _ _ _).mpr (Or.inr h)
          · exact fun a h => (has_ins _ _ _ _).mpr (Or.inr h)
          · exact fun h => LD_ins h _ _
          · exact fun h => LD_ins h _ _
    obtain ⟨d1, e1, a1⟩ := step
    obtain ⟨d2, e2, a2⟩ := ih d1 hnd' (a1.mv hmv)
    refine ⟨d2, by rw [e1, e2], (a1.comp a2 ?_).congr ?_⟩
    · rintro a b ⟨h1, _⟩ ⟨rfl, _⟩
      exact hk h1
    · intro a b
      simp only [List.mem_cons]
      tauto

theorem hhApply_spec (L : List M) (hL : L.Nodup) (u g : M → V) : ∀ (Q : List M) (d : D M V), Q.Nodup → MV d →
    ∃ d', hhApply (tab L u) (tab Q g) d = .ok d' ∧ Ap (fun a b => a ∈ L ∧ b ∈ Q) u g d d' := by
  intro Q
  induction Q with
  | nil => intro d _ _; exact ⟨d, rfl, (Ap.refl _ _ _).congr (by simp)⟩
  | cons f fs ih =>
    intro d hnd hmv
    obtain ⟨hf, hnd'⟩ := List.nodup_cons.mp hnd
    obtain ⟨d1, e1, a1⟩ := hhApply1_spec f g u L d hL hmv
    obtain ⟨d2, e2, a2⟩ := ih d1 hnd' (a1.mv hmv)
    refine ⟨d2, ?_, (a1.comp a2 ?_).congr ?_⟩
    · show hhApply (tab L u) ((f, g f) :: tab fs g) d = _
      rw [hhApply, e1]
      exact e2
    · rintro a b ⟨_, h1⟩ ⟨_, rfl⟩
      exact hf h1
    · intro a b
      simp only [List.mem_cons]
      tauto

/-- Removal of the entries of column `into` in rows `F`. -/
theorem hhClear_spec (into : M) : ∀ (F : List M) (d : D M V), F.Nodup → MV d → (∀ k ∈ F, into ∈ at' d.seq k) →
    ∃ d', hhClear into F d = .ok d' ∧
      (∀ a b, b ∈ at' d'.seq a ↔ b ∈ at' d.seq a ∧ ¬ (a ∈ F ∧ b = into)) ∧
      (∀ a b, b ∈ at' d'.req a ↔ b ∈ at' d.req a ∧ ¬ (b ∈ F ∧ a = into)) ∧
      d'.alpha = d.alpha ∧ d'.beta = d.beta ∧
      (∀ a b, Dict.get? d'.em (a, b) = if a ∈ F ∧ b = into then none else Dict.get? d.em (a, b)) ∧
      (∀ a, Dict.has d'.seq a = true ↔ Dict.has d.seq a = true) ∧
      (∀ a, Dict.has d'.req a = true ↔ Dict.has d.req a = true) ∧
      (LD d.seq → LD d'.seq) ∧ (LD d.req → LD d'.req) := by
  intro F
  induction F with
  | nil =>
    intro d _ _ _
    exact ⟨d, rfl, by simp, by simp, rfl, rfl, by simp, fun _ => Iff.rfl, fun _ => Iff.rfl, id, id⟩
  | cons k ks ih =>
    intro d hnd hmv hl
    obtain ⟨hk, hnd'⟩ := List.nodup_cons.mp hnd
    have hlk := hl k (by simp)
    obtain ⟨sq, hsq, sq1, sq2, sq3⟩ := rem_ok hlk
    obtain ⟨rq, hrq, rq1, rq2, rq3⟩ := rem_ok ((hmv.mir _ _).mp hlk)
    have hem : ∀ a b, Dict.get? (Dict.erase d.em (k, into)) (a, b) = if a = k ∧ b = into then none else Dict.get? d.em (a, b) := by
      intro a b
      rw [Dict.get?_erase]
      by_cases h : a = k ∧ b = into
      · rw [if_pos h, if_pos]; rw [h.1, h.2]
      · rw [if_neg h, if_neg]
        intro e
        rw [Prod.mk.injEq] at e
        exact h ⟨e.1.symm, e.2.symm⟩
    obtain ⟨d', e1, e2, e3, e4, e5, e6, e7, e8, e9, e10⟩ := ih
      { d with seq := sq, req := rq, em := Dict.erase d.em (k, into) } hnd'
      (by
        constructor
        · intro r s
          show s ∈ at' sq r ↔ r ∈ at' rq s
          rw [sq1, rq1, hmv.mir, and_comm (a := r = k)]
        · intro r s hs
          have hs' := (sq1 r s).mp hs
          show (Dict.get? (Dict.erase d.em (k, into)) (r, s)).isSome
          rw [hem, if_neg hs'.2]
          exact hmv.val r s hs'.1)
      (by
        intro q hq
        refine (sq1 q into).mpr ⟨hl q (List.mem_cons_of_mem _ hq), fun e => hk (e.1 ▸ hq)⟩)
    refine ⟨d', ?_, ?_, ?_, e4, e5, ?_, fun a => (e7 a).trans (sq2 a), fun a => (e8 a).trans (rq2 a),
      fun h => e9 (sq3 h), fun h => e10 (rq3 h)⟩
    · rw [hhClear, hsq]
      simp only [bind, Except.bind]
      rw [hrq]
      dsimp only
      rw [del_ok (hmv.val k into hlk)]
      exact e1
    · intro a b
      rw [e2]
      show b ∈ at' sq a ∧ _ ↔ _
      rw [sq1]
      by_cases h1 : a = k <;> by_cases h2 : b = into <;> simp [h1, h2]
    · intro a b
      rw [e3]
      show b ∈ at' rq a ∧ _ ↔ _
      rw [rq1]
      by_cases h1 : b = k <;> by_cases h2 : a = into <;> simp [h1, h2]
    · intro a b
      rw [e6]
      show (if a ∈ ks ∧ b = into then none else Dict.get? (Dict.erase d.em (k, into)) (a, b)) = _
      rw [hem]
      by_cases h1 : a = k <;> by_cases h2 : b = into <;> simp [h1, h2]

/-! ### The edges to the sinks -/

theorem hhBetaTo_spec (s : M) (g : V) (u : M → V) : ∀ (L : List M) (acc : Dict (M × M) V), L.Nodup →
    (∀ a t, Dict.get? (hhBetaTo s g (tab L u) acc) (a, t) =
      if a = s ∧ t ∈ L then some ((Dict.get? acc (a, t)).getD 0 + u t * g) else Dict.get? acc (a, t)) ∧
    (Dict.WF acc → Dict.WF (hhBetaTo s g (tab L u) acc)) := by
  intro L
  induction L with
  | nil => intro acc _; exact ⟨fun a t => by simp [hhBetaTo, tab], id⟩
  | cons k ks ih =>
    intro acc hnd
    obtain ⟨hk, hnd'⟩ := List.nodup_cons.mp hnd
    obtain ⟨h1, h2⟩ := ih (Dict.set acc (s, k) ((Dict.get? acc (s, k)).getD 0 + u k * g)) hnd'
    have e : hhBetaTo s g (tab (k :: ks) u) acc =
      hhBetaTo s g (tab ks u) (Dict.set acc (s, k) ((Dict.get? acc (s, k)).getD 0 + u k * g)) := rfl
    rw [e]
    refine ⟨fun a t => ?_, fun h => h2 (Dict.WF_set h _ _)⟩
    rw [h1, Dict.get?_set]
    by_cases ha : a = s
    · subst ha
      by_cases ht : t = k
      · subst ht
        simp [hk]
      · have : ¬ ((a, k) = (a, t)) := fun e => ht (Prod.mk.inj e).2.symm
        simp [ht, Ne.symm ht]
    · have : ¬ ((s, k) = (a, t)) := fun e => ha (Prod.mk.inj e).1.symm
      simp [ha, this]

theorem hhBetaK_spec (A : Alg V) (d : D M V) (L : List M) (hL : L.Nodup) (u : M → V) (k : M) :
    ∀ (S : List M) (acc : Dict (M × M) V), S.Nodup → (∀ s ∈ S, (Dict.get? d.em (k, s)).isSome) →
    ∃ acc', hhBetaK A d (tab L u) k (u k) S acc = .ok acc' ∧ (Dict.WF acc → Dict.WF acc') ∧
      ∀ a t, Dict.get? acc' (a, t) = if a ∈ S ∧ t ∈ L then
        some ((Dict.get? acc (a, t)).getD 0 + u t * (-2 * A.conj (u k) * ev d k a)) else Dict.get? acc (a, t) := by
  intro S
  induction S with
  | nil => intro acc _ _; exact ⟨acc, rfl, id, fun a t => by simp⟩
  | cons s ss ih =>
    intro acc hnd hv
    obtain ⟨hs, hnd'⟩ := List.nodup_cons.mp hnd
    obtain ⟨v, hv'⟩ := Option.isSome_iff_exists.mp (hv s (by simp))
    have hev : ev d k s = v := by unfold ev; rw [hv']; rfl
    obtain ⟨g1, g2⟩ := hhBetaTo_spec s (-2 * A.conj (u k) * v) u L acc hL
    obtain ⟨acc', h1, h2, h3⟩ := ih (hhBetaTo s (-2 * A.conj (u k) * v) (tab L u) acc) hnd'
      (fun q hq => hv q (List.mem_cons_of_mem _ hq))
    refine ⟨acc', ?_, fun h => h2 (g2 h), fun a t => ?_⟩
    · rw [hhBetaK, get_ok hv']
      exact h1
    · rw [h3, g1]
      by_cases ha : a = s
      · subst ha
        simp [hs, hev]
      · simp [ha]

theorem hhBeta_spec (A : Alg V) (d : D M V) (L : List M) (hL : L.Nodup) (u : M → V)
    (hb : LD d.beta) : ∀ (L' : List M) (acc : Dict (M × M) V),
    (∀ k ∈ L', ∀ s ∈ at' d.beta k, (Dict.get? d.em (k, s)).isSome) →
    ∃ acc', hhBeta A d (tab L u) (tab L' u) acc = .ok acc' ∧ (Dict.WF acc → Dict.WF acc') ∧
      ∀ a t, Dict.get? acc' (a, t) = if t ∈ L ∧ ∃ k ∈ L', a ∈ at' d.beta k then
        some ((Dict.get? acc (a, t)).getD 0 +
          -2 * u t * lsum L' (fun k => if a ∈ at' d.beta k then A.conj (u k) * ev d k a else 0))
        else Dict.get? acc (a, t) := by
  intro L'
  induction L' with
  | nil => intro acc _; exact ⟨acc, rfl, id, fun a t => by simp⟩
  | cons k ks ih =>
    intro acc hv
    obtain ⟨acc1, g1, g2, g3⟩ := hhBetaK_spec A d L hL u k (at' d.beta k) acc (hb.nd k) (hv k (by simp))
    obtain ⟨acc', h1, h2, h3⟩ := ih acc1 (fun q hq => hv q (List.mem_cons_of_mem _ hq))
    refine ⟨acc', ?_, fun h => h2 (g2 h), fun a t => ?_⟩
    · show hhBeta A d (tab L u) ((k, u k) :: tab ks u) acc = _
      rw [hhBeta, g1]
      exact h1
    · rw [h3, g3]
      by_cases ht : t ∈ L
      · by_cases ha : a ∈ at' d.beta k
        · by_cases hq : ∃ k ∈ ks, a ∈ at' d.beta k
          · rw [if_pos ⟨ht, hq⟩, if_pos ⟨ha, ht⟩, if_pos ⟨ht, k, by simp, ha⟩, lsum_cons, if_pos ha]
            simp only [Option.getD_some]
            congr 1
            ring
          · have hz : lsum ks (fun k => if a ∈ at' d.beta k then A.conj (u k) * ev d k a else 0) = 0 := by
              rw [lsum_congr (g := fun _ => 0)]
              · simp [lsum]
              · intro q hq'
                rw [if_neg]
                exact fun h => hq ⟨q, hq', h⟩
            rw [if_neg (fun h => hq h.2), if_pos ⟨ha, ht⟩, if_pos ⟨ht, k, by simp, ha⟩, lsum_cons, if_pos ha, hz]
            congr 1
            ring
        · by_cases hq : ∃ k ∈ ks, a ∈ at' d.beta k
          · obtain ⟨q, hq1, hq2⟩ := hq
            rw [if_pos ⟨ht, q, hq1, hq2⟩, if_neg (fun h => ha h.1),
              if_pos ⟨ht, q, List.mem_cons_of_mem _ hq1, hq2⟩, lsum_cons, if_neg ha, zero_add]
          · rw [if_neg (fun h => hq h.2), if_neg (fun h => ha h.1), if_neg]
            rintro ⟨_, q, hq1, hq2⟩
            rcases List.mem_cons.mp hq1 with rfl | hq1
            · exact ha hq2
            · exact hq ⟨q, hq1, hq2⟩
      · rw [if_neg (fun h => ht h.1), if_neg (fun h => ht h.2), if_neg (fun h => ht h.1)]

/-- The value of an edge to a sink, 0 when it is not listed. -/
def bv (d : D M V) (a b : M) : V := if b ∈ at' d.beta a then ev d a b else 0

theorem hhBetaApply_spec : ∀ (acc : Dict (M × M) V) (d : D M V), Dict.WF acc →
    (∀ r s, s ∈ at' d.beta r → (Dict.get? d.em (r, s)).isSome) →
    ∃ d', hhBetaApply acc d = .ok d' ∧ d'.seq = d.seq ∧ d'.req = d.req ∧ d'.alpha = d.alpha ∧
      (∀ a b, b ∈ at' d'.beta a ↔ b ∈ at' d.beta a ∨ Dict.has acc (b, a) = true) ∧
      (∀ a b, Dict.get? d'.em (a, b) = match Dict.get? acc (b, a) with
        | some v => some (bv d a b + v)
        | none => Dict.get? d.em (a, b)) ∧
      (LD d.beta → LD d'.beta) := by
  intro acc
  induction acc with
  | nil => intro d _ _; exact ⟨d, rfl, rfl, rfl, rfl, by simp [Dict.has], fun a b => rfl, id⟩
  | cons kv rest ih =>
    intro d hwf hv
    obtain ⟨⟨s, t⟩, e⟩ := kv
    have hwf' : (s, t) ∉ Dict.keys rest ∧ Dict.WF rest := by simpa [Dict.WF, Dict.keys] using hwf
    have hn : Dict.get? rest (s, t) = none := (Dict.get?_eq_none_iff _ _).2 hwf'.1
    have step : ∃ d1, hhBetaApply (((s, t), e) :: rest) d = hhBetaApply rest d1 ∧ d1.seq = d.seq ∧ d1.req = d.req ∧
        d1.alpha = d.alpha ∧ (∀ a b, b ∈ at' d1.beta a ↔ b ∈ at' d.beta a ∨ (a = t ∧ b = s)) ∧
        d1.em = Dict.set d.em (t, s) (bv d t s + e) ∧ (LD d.beta → LD d1.beta) := by
      by_cases hl : s ∈ at' d.beta t
      · obtain ⟨v, hv'⟩ := Option.isSome_iff_exists.mp (hv t s hl)
        have hev : ev d t s = v := by unfold ev; rw [hv']; rfl
        refine ⟨{ d with em := Dict.set d.em (t, s) (v + e) }, ?_, rfl, rfl, rfl, ?_, ?_, id⟩
        · rw [hhBetaApply, if_pos hl, get_ok hv']
          rfl
        · intro a b
          refine ⟨Or.inl, fun h => h.elim id ?_⟩
          rintro ⟨rfl, rfl⟩
          exact hl
        · unfold bv
          rw [if_pos hl, hev]
      · refine ⟨{ d with em := Dict.set d.em (t, s) e, beta := ins d.beta t s }, ?_, rfl, rfl, rfl, ?_, ?_,
          fun h => LD_ins h _ _⟩
        · rw [hhBetaApply, if_neg hl]
        · intro a b
          show b ∈ at' (ins d.beta t s) a ↔ _
          rw [mem_ins, eq_comm (a := t)]
        · unfold bv
          rw [if_neg hl, zero_add]
    obtain ⟨d1, h0, s1, s2, s3, s4, s5, s6⟩ := step
    obtain ⟨d', h1, t1, t2, t3, t4, t5, t6⟩ := ih d1 hwf'.2 (by
      intro r s' h
      rw [s5, Dict.get?_set]
      split
      · rfl
      · rename_i hne
        rcases (s4 r s').mp h with h | ⟨rfl, rfl⟩
        · exact hv r s' h
        · exact absurd rfl hne)
    refine ⟨d', by rw [h0, h1], t1.trans s1, t2.trans s2, t3.trans s3, ?_, ?_, fun h => t6 (s6 h)⟩
    · intro a b
      rw [t4, s4]
      have : Dict.has (((s, t), e) :: rest) (b, a) = true ↔ (a = t ∧ b = s) ∨ Dict.has rest (b, a) = true := by
        rw [Dict.has_iff, Dict.has_iff]
        simp only [Dict.keys, List.map_cons, List.mem_cons, Prod.mk.injEq]
        tauto
      rw [this]
      tauto
    · intro a b
      rw [t5, Dict.get?_cons]
      dsimp only
      by_cases h : (s, t) = (b, a)
      · obtain ⟨rfl, rfl⟩ := Prod.mk.inj h
        rw [hn, if_pos rfl, s5, Dict.get?_set_self]
      · rw [if_neg h]
        have hne : ¬ (a = t ∧ b = s) := fun q => h (by rw [q.1, q.2])
        have e1 : Dict.get? d1.em (a, b) = Dict.get? d.em (a, b) := by
          rw [s5, Dict.get?_set_ne]
          intro q
          exact hne ⟨(Prod.mk.inj q).1.symm, (Prod.mk.inj q).2.symm⟩
        have e2 : bv d1 a b = bv d a b := by
          unfold bv ev
          rw [e1]
          simp only [s4, hne, or_false]
        rw [e1, e2]

end Dag
