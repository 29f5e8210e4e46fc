import Verif.Floating.Model
import Verif.Inject.IterateProps

/-!
# Virtual nodes: lifting, removing, lowering
-/

set_option linter.unusedSectionVars false

namespace Floating
open Py Inject

variable {P K F : Type} [DecidableEq P] [DecidableEq K] [Field F] [DecidableEq F] {n : ℕ}

theorem real_inj {a b : P × K} (h : (real a : Node P K n) = real b) : a = b := by
  unfold real at h
  injection h with h1 h2
  injection h1 with h1
  injection h2 with h2
  exact Prod.ext h1 h2

theorem real_ne_vnode (a : P × K) (i : Fin n) : (real a : Node P K n) ≠ vnode i := by
  intro h
  unfold real vnode at h
  injection h with h1
  cases h1

theorem vnode_inj {i j : Fin n} (h : (vnode i : Node P K n) = vnode j) : i = j := by
  unfold vnode at h
  injection h with h1
  injection h1

theorem unreal_real (a : P × K) : unreal (real a : Node P K n) = some a := rfl

theorem unreal_eq {z : Node P K n} {a : P × K} : unreal z = some a ↔ z = real a := by
  constructor
  · intro h
    obtain ⟨p, k⟩ := z
    cases p <;> cases k <;> simp [unreal] at h
    rw [← h]; rfl
  · rintro rfl; rfl

theorem mem_unreal {l : List (Node P K n)} {a : P × K} : a ∈ l.filterMap unreal ↔ real a ∈ l := by
  rw [List.mem_filterMap]
  constructor
  · rintro ⟨z, hz, h⟩
    rw [unreal_eq] at h
    exact h ▸ hz
  · exact fun h => ⟨_, h, rfl⟩

/-! ## dictionaries with renamed keys -/

theorem get?_map_key {A B V W : Type} [DecidableEq A] [DecidableEq B] (f : A → B) (hf : ∀ a b, f a = f b → a = b) (g : V → W)
    (d : Dict A V) (k : A) : Dict.get? (d.map fun kv => (f kv.1, g kv.2)) (f k) = (Dict.get? d k).map g := by
  induction d with
  | nil => rfl
  | cons kv d ih =>
    rw [List.map_cons, Dict.get?_cons, Dict.get?_cons]
    dsimp only
    by_cases h : kv.1 = k
    · rw [if_pos h, if_pos (by rw [h])]; rfl
    · rw [if_neg h, if_neg (fun hh => h (hf _ _ hh))]; exact ih

theorem get?_map_other {A B V W : Type} [DecidableEq A] [DecidableEq B] (f : A → B) (g : V → W)
    (d : Dict A V) (z : B) (hz : ∀ a, z ≠ f a) : Dict.get? (d.map fun kv => (f kv.1, g kv.2)) z = none := by
  induction d with
  | nil => rfl
  | cons kv d ih =>
    rw [List.map_cons, Dict.get?_cons]
    dsimp only
    rw [if_neg (fun h => hz _ h.symm)]
    exact ih

theorem WF_map_key {A B V W : Type} [DecidableEq A] [DecidableEq B] (f : A → B) (hf : ∀ a b, f a = f b → a = b) (g : V → W)
    {d : Dict A V} (h : Dict.WF d) : Dict.WF (d.map fun kv => (f kv.1, g kv.2)) := by
  unfold Dict.WF Dict.keys at h ⊢
  rw [List.map_map]
  have : (Prod.fst ∘ fun kv : A × V => (f kv.1, g kv.2)) = f ∘ Prod.fst := rfl
  rw [this, ← List.map_map]
  exact h.map hf

theorem mem_lift (d : SetDict P K) (z y : Node P K n) :
    mem (lift_set d) z y ↔ ∃ a b, z = real a ∧ y = real b ∧ mem d a b := by
  unfold mem lift_set
  by_cases hz : ∃ a, z = real a
  · obtain ⟨a, rfl⟩ := hz
    rw [get?_map_key real (fun _ _ => real_inj)]
    constructor
    · intro h
      cases hd : Dict.get? d a with
      | none => rw [hd] at h; simp at h
      | some l =>
        rw [hd] at h
        obtain ⟨b, hb, rfl⟩ := List.mem_map.1 (show y ∈ l.map real from h)
        exact ⟨a, b, rfl, rfl, by rw [hd]; exact hb⟩
    · rintro ⟨a', b, h1, rfl, hb⟩
      cases real_inj h1
      cases hd : Dict.get? d a with
      | none => rw [hd] at hb; simp at hb
      | some l =>
        rw [hd] at hb
        exact List.mem_map_of_mem (f := real) hb
  · rw [get?_map_other real _ d z (fun a h => hz ⟨a, h⟩)]
    constructor
    · intro h; simp at h
    · rintro ⟨a, -, h, -⟩
      exact absurd ⟨a, h⟩ hz

theorem SetWF_lift {d : SetDict P K} (h : SetWF d) : SetWF (lift_set d : SetDict (P ⊕ Fin n) (K ⊕ Fin n)) := by
  refine ⟨WF_map_key real (fun _ _ => real_inj) _ h.1, ?_⟩
  intro kv hkv
  obtain ⟨kv', h', rfl⟩ := List.mem_map.1 hkv
  exact (h.2 kv' h').map (fun _ _ => real_inj)

theorem hasRule_lift {κ κ' : Type} [DecidableEq κ] [DecidableEq κ'] (f : κ → κ') (hf : ∀ a b, f a = f b → a = b)
    (d : Dict κ (List (Rule (P × K)))) (z : κ') (r' : Rule (Node P K n)) :
    HasRule (lift_rules f d) z r' ↔ ∃ k r, z = f k ∧ HasRule d k r ∧ r' = lift_rule r := by
  unfold HasRule lift_rules lst
  by_cases hz : ∃ a, z = f a
  · obtain ⟨a, rfl⟩ := hz
    rw [get?_map_key f hf]
    cases hd : Dict.get? d a with
    | none =>
      constructor
      · intro h; simp at h
      · rintro ⟨k, r, h1, h2, -⟩
        cases hf _ _ h1
        rw [hd] at h2; simp at h2
    | some l =>
      constructor
      · intro h
        obtain ⟨r, hr, h⟩ := List.mem_map.1 (show r' ∈ l.map lift_rule from h)
        exact ⟨a, r, rfl, by rw [hd]; exact hr, h.symm⟩
      · rintro ⟨k, r, h1, h2, rfl⟩
        cases hf _ _ h1
        rw [hd] at h2
        exact List.mem_map_of_mem (f := lift_rule) h2
  · rw [get?_map_other f _ d z (fun a h => hz ⟨a, h⟩)]
    constructor
    · intro h; simp at h
    · rintro ⟨k, r, h, -⟩
      exact absurd ⟨k, h⟩ hz

/-! ## lowering -/

theorem get?_lower (d : SetDict (P ⊕ Fin n) (K ⊕ Fin n)) (a : P × K) :
    Dict.get? (lower d) a = (Dict.get? d (real a)).map fun l => l.filterMap unreal := by
  unfold lower
  induction d with
  | nil => rfl
  | cons kv d ih =>
    rw [List.filterMap_cons, Dict.get?_cons]
    cases hu : unreal kv.1 with
    | none =>
      rw [if_neg]
      · exact ih
      · intro h
        rw [h, unreal_real] at hu
        cases hu
    | some b =>
      rw [unreal_eq] at hu
      simp only [Option.map_some]
      rw [Dict.get?_cons]
      dsimp only
      by_cases h : b = a
      · rw [if_pos h, if_pos (by rw [hu, h])]; rfl
      · rw [if_neg h, if_neg (fun hh => h (real_inj (hu.symm.trans hh)))]
        exact ih

theorem mem_lower (d : SetDict (P ⊕ Fin n) (K ⊕ Fin n)) (a b : P × K) : mem (lower d) a b ↔ mem d (real a) (real b) := by
  unfold mem
  rw [get?_lower]
  cases hd : Dict.get? d (real a) with
  | none => simp
  | some l => exact mem_unreal

theorem SetWF_lower {d : SetDict (P ⊕ Fin n) (K ⊕ Fin n)} (h : SetWF d) : SetWF (lower d) := by
  constructor
  · have hk : Dict.keys (lower d) = (Dict.keys d).filterMap unreal := by
      unfold lower Dict.keys
      rw [List.filterMap_map, List.map_filterMap]
      congr 1
      funext kv
      simp only [Function.comp_apply]
      cases unreal kv.1 <;> rfl
    unfold Dict.WF
    rw [hk]
    refine h.1.filterMap ?_
    intro a a' b hb hb'
    rw [Option.mem_def, unreal_eq] at hb hb'
    rw [hb, hb']
  · intro kv hkv
    unfold lower at hkv
    obtain ⟨kv', h', hm⟩ := List.mem_filterMap.1 hkv
    cases hu : unreal kv'.1 with
    | none => rw [hu] at hm; cases hm
    | some b =>
      rw [hu] at hm
      injection hm with hm
      rw [← hm]
      refine (h.2 kv' h').filterMap ?_
      intro a a' b hb hb'
      rw [Option.mem_def, unreal_eq] at hb hb'
      rw [hb, hb']

/-! ## removing a node -/

section Remove
variable {N : Type} [DecidableEq N]

theorem remove_spec {d : Dict N (List N)} {k x : N} (h : x ∈ lst d k) :
    ∃ d', remove d k x = .ok d' ∧ (∀ a b, b ∈ lst d' a ↔ b ∈ lst d a ∧ ¬ (a = k ∧ b = x)) ∧
      ((Dict.WF d ∧ ∀ kv ∈ d, kv.2.Nodup) → Dict.WF d' ∧ ∀ kv ∈ d', kv.2.Nodup) ∧
      ∀ a ∈ Dict.keys d', a ∈ Dict.keys d := by
  unfold remove
  refine ⟨_, if_pos h, ?_, ?_, ?_⟩
  · intro a b
    unfold lst
    rw [Dict.get?_set]
    by_cases ha : k = a
    · subst ha
      rw [if_pos rfl, Option.getD_some, List.mem_filter]
      simp
    · rw [if_neg ha]
      simp [Ne.symm ha]
  · intro hw
    exact set_nodup _ hw _ _ ((lst_nodup hw k).filter _)
  · intro a ha
    rw [Dict.mem_keys_iff, Dict.get?_set] at ha
    rw [Dict.mem_keys_iff]
    by_cases hk : k = a
    · subst hk
      unfold lst at h
      cases hd : Dict.get? d k with
      | none => rw [hd] at h; cases h
      | some l => rfl
    · rw [if_neg hk] at ha
      exact ha

/-- taking `v` out of the sets of a number of nodes -/
theorem remove_all (v : N) (l : List N) (hl : l.Nodup) {d : Dict N (List N)} (h : ∀ t ∈ l, v ∈ lst d t) :
    ∃ d', l.foldlM (fun d t => remove d t v) d = .ok d' ∧ (∀ a b, b ∈ lst d' a ↔ b ∈ lst d a ∧ ¬ (a ∈ l ∧ b = v)) ∧
      ((Dict.WF d ∧ ∀ kv ∈ d, kv.2.Nodup) → Dict.WF d' ∧ ∀ kv ∈ d', kv.2.Nodup) ∧
      ∀ a ∈ Dict.keys d', a ∈ Dict.keys d := by
  induction l generalizing d with
  | nil => exact ⟨d, rfl, by simp, id, fun _ => id⟩
  | cons t l ih =>
    rw [List.nodup_cons] at hl
    obtain ⟨d1, h1, h2, h3, k3⟩ := remove_spec (h t List.mem_cons_self)
    obtain ⟨d2, h4, h5, h6, k6⟩ := ih hl.2 (d := d1) (by
      intro s hs
      rw [h2]
      refine ⟨h s (List.mem_cons_of_mem _ hs), ?_⟩
      rintro ⟨rfl, -⟩
      exact hl.1 hs)
    refine ⟨d2, ?_, ?_, fun hw => h6 (h3 hw), fun a ha => k3 a (k6 a ha)⟩
    · rw [List.foldlM_cons, h1]
      exact h4
    · intro a b
      rw [h5, h2, List.mem_cons]
      constructor
      · rintro ⟨⟨k1, k2⟩, k3⟩
        refine ⟨k1, ?_⟩
        rintro ⟨k4 | k4, k5⟩
        · exact k2 ⟨k4, k5⟩
        · exact k3 ⟨k4, k5⟩
      · rintro ⟨k1, k2⟩
        exact ⟨⟨k1, fun k => k2 ⟨Or.inl k.1, k.2⟩⟩, fun k => k2 ⟨Or.inr k.1, k.2⟩⟩

/-- `remove_vnode` takes out a node without a loop, and nothing else. -/
theorem remove_vnode_spec {g : SR N} (hw : g.WF) (hbal : ∀ a b, b ∈ lst g.seq a ↔ a ∈ lst g.req b) {v : N}
    (hv : v ∉ lst g.seq v) :
    ∃ g', remove_vnode g v = .ok g' ∧ g'.WF ∧ (∀ a b, b ∈ lst g'.seq a ↔ a ∈ lst g'.req b) ∧
      (∀ a b, b ∈ lst g'.seq a ↔ b ∈ lst g.seq a ∧ a ≠ v ∧ b ≠ v) ∧
      (∀ a ∈ Dict.keys g'.seq, a ∈ Dict.keys g.seq ∧ a ≠ v) ∧ (∀ a ∈ Dict.keys g'.req, a ∈ Dict.keys g.req ∧ a ≠ v) := by
  obtain ⟨req, r1, r2, r3, r4⟩ := remove_all v (lst g.seq v) (lst_nodup hw.1 v) (d := g.req) (fun t ht => (hbal v t).1 ht)
  have hrv : ∀ a, a ∈ lst req v ↔ v ∈ lst g.seq a := by
    intro a
    rw [r2]
    constructor
    · exact fun h => (hbal a v).2 h.1
    · exact fun h => ⟨(hbal a v).1 h, fun h' => hv h'.1⟩
  obtain ⟨seq, s1, s2, s3, s4⟩ := remove_all v (lst req v) (lst_nodup (r3 hw.2) v) (d := g.seq) (fun t ht => (hrv t).1 ht)
  have hlst : ∀ (d : Dict N (List N)) (a b : N), b ∈ lst (Dict.erase d v) a ↔ b ∈ lst d a ∧ a ≠ v := by
    intro d a b
    unfold lst
    rw [Dict.get?_erase]
    by_cases ha : v = a
    · rw [if_pos ha]; simp [ha]
    · rw [if_neg ha]; simp [Ne.symm ha]
  have hseq : ∀ a b, b ∈ lst (Dict.erase seq v) a ↔ b ∈ lst g.seq a ∧ a ≠ v ∧ b ≠ v := by
    intro a b
    rw [hlst, s2, hrv]
    constructor
    · rintro ⟨⟨h1, h2⟩, h3⟩
      refine ⟨h1, h3, ?_⟩
      rintro rfl
      exact h2 ⟨h1, rfl⟩
    · rintro ⟨h1, h2, h3⟩
      exact ⟨⟨h1, fun h => h3 h.2⟩, h2⟩
  have hreq : ∀ a b, a ∈ lst (Dict.erase req v) b ↔ b ∈ lst g.seq a ∧ a ≠ v ∧ b ≠ v := by
    intro a b
    rw [hlst, r2, ← hbal]
    constructor
    · rintro ⟨⟨h1, h2⟩, h3⟩
      refine ⟨h1, ?_, h3⟩
      rintro rfl
      exact h2 ⟨h1, rfl⟩
    · rintro ⟨h1, h2, h3⟩
      exact ⟨⟨h1, fun h => h2 h.2⟩, h3⟩
  have hwf : ∀ d : Dict N (List N), (Dict.WF d ∧ ∀ kv ∈ d, kv.2.Nodup) →
      Dict.WF (Dict.erase d v) ∧ ∀ kv ∈ Dict.erase d v, kv.2.Nodup := by
    intro d hd
    refine ⟨Dict.WF_erase hd.1 v, ?_⟩
    rintro ⟨k, l⟩ hkl
    have := Dict.get?_of_mem (Dict.WF_erase hd.1 v) hkl
    rw [Dict.get?_erase] at this
    by_cases hk : v = k
    · rw [if_pos hk] at this; cases this
    · rw [if_neg hk] at this
      exact hd.2 (k, l) (Dict.mem_of_get? this)
  refine ⟨⟨Dict.erase seq v, Dict.erase req v⟩, ?_, ⟨hwf _ (s3 hw.1), hwf _ (r3 hw.2)⟩, ?_, hseq, ?_, ?_⟩
  · unfold remove_vnode
    rw [show (Dict.get? g.seq v).getD [] = lst g.seq v from rfl, r1, bind_ok,
      show (Dict.get? req v).getD [] = lst req v from rfl, s1]
    rfl
  · intro a b
    rw [hseq, hreq]
  · intro a ha
    dsimp only at ha
    rw [Dict.keys_erase, List.mem_filter] at ha
    exact ⟨s4 a ha.1, by simpa using ha.2⟩
  · intro a ha
    dsimp only at ha
    rw [Dict.keys_erase, List.mem_filter] at ha
    exact ⟨r4 a ha.1, by simpa using ha.2⟩

/-- a number of nodes not connected to each other -/
theorem remove_vnodes (vs : List N) {g : SR N} (hw : g.WF) (hbal : ∀ a b, b ∈ lst g.seq a ↔ a ∈ lst g.req b)
    (hv : ∀ v ∈ vs, v ∉ lst g.seq v) :
    ∃ g', vs.foldlM remove_vnode g = .ok g' ∧ g'.WF ∧ (∀ a b, b ∈ lst g'.seq a ↔ a ∈ lst g'.req b) ∧
      (∀ a b, b ∈ lst g'.seq a ↔ b ∈ lst g.seq a ∧ a ∉ vs ∧ b ∉ vs) ∧
      (∀ a ∈ Dict.keys g'.seq, a ∈ Dict.keys g.seq ∧ a ∉ vs) ∧ (∀ a ∈ Dict.keys g'.req, a ∈ Dict.keys g.req ∧ a ∉ vs) := by
  induction vs generalizing g with
  | nil => exact ⟨g, rfl, hw, hbal, by simp, by simp, by simp⟩
  | cons v vs ih =>
    obtain ⟨g1, a1, a2, a3, a4, a5, a6⟩ := remove_vnode_spec hw hbal (hv v List.mem_cons_self)
    obtain ⟨g2, b1, b2, b3, b4, b5, b6⟩ := ih a2 a3 (by
      intro w hw' h
      exact hv w (List.mem_cons_of_mem _ hw') ((a4 w w).1 h).1)
    refine ⟨g2, ?_, b2, b3, ?_, ?_, ?_⟩
    · rw [List.foldlM_cons, a1]
      exact b1
    · intro a b
      rw [b4, a4]
      simp only [List.mem_cons, not_or]
      tauto
    · intro a ha
      obtain ⟨h1, h2⟩ := b5 a ha
      obtain ⟨h3, h4⟩ := a5 a h1
      exact ⟨h3, by simp [h2, h4]⟩
    · intro a ha
      obtain ⟨h1, h2⟩ := b6 a ha
      obtain ⟨h3, h4⟩ := a6 a h1
      exact ⟨h3, by simp [h2, h4]⟩

/-- the loop over both graphs -/
theorem remove_boths (vs : List N) {g h g' h' : SR N} (hg : vs.foldlM remove_vnode g = .ok g')
    (hh : vs.foldlM remove_vnode h = .ok h') : vs.foldlM remove_both (g, h) = .ok (g', h') := by
  induction vs generalizing g h with
  | nil =>
    cases foldlM_nil_ok hg
    cases foldlM_nil_ok hh
    rfl
  | cons v vs ih =>
    obtain ⟨g1, a1, a2⟩ := foldlM_cons_ok hg
    obtain ⟨h1, b1, b2⟩ := foldlM_cons_ok hh
    have : remove_both (g, h) v = .ok (g1, h1) := by
      unfold remove_both
      dsimp only
      rw [a1, bind_ok, b1, bind_ok]
      rfl
    rw [List.foldlM_cons, this]
    exact ih a2 b2

end Remove

end Floating
