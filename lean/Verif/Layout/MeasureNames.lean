import Verif.Layout.MeasureProps

/-!
# C117: the names of targets, and overlaps of successive targets
-/

set_option linter.unusedSectionVars false

namespace Alm
open Py Cplx

namespace Comp

variable {V : Type} [Field V] [LinearOrder V]

theorem mem_q_targets_from {info : Tgt → Given V} {k : Nat} {l : List (Comp V)} {t : Tgt} {n : String} :
    (t, n) ∈ q_targets_from info k l ↔ ∃ (i : Nat) (c : Comp V) (t' : Tgt), l[i]? = some c ∧ t = .idx (k + i) :: t' ∧
      (t', n) ∈ q_targets (fun t => info (.idx (k + i) :: t)) c := by
  induction l generalizing k with
  | nil => simp [q_targets_from]
  | cons c l ih =>
    rw [q_targets_from, List.mem_append, ih]
    constructor
    · rintro (h | ⟨i, d, t', h1, h2, h3⟩)
      · obtain ⟨x, hx, h⟩ := List.mem_map.mp h
        obtain ⟨e1, e2⟩ := Prod.mk.inj h
        refine ⟨0, c, x.1, rfl, e1.symm, ?_⟩
        rw [← e2]
        exact hx
      · refine ⟨i + 1, d, t', h1, ?_, ?_⟩
        · rw [h2, Nat.add_right_comm, Nat.add_assoc]
        · have : k + (i + 1) = k + 1 + i := by omega
          rw [this]
          exact h3
    · rintro ⟨i, d, t', h1, h2, h3⟩
      cases i with
      | zero =>
        cases Option.some.inj h1
        exact Or.inl (List.mem_map.mpr ⟨(t', n), h3, by rw [h2]; rfl⟩)
      | succ i =>
        have : k + (i + 1) = k + 1 + i := by omega
        rw [this] at h2 h3
        exact Or.inr ⟨i, d, t', h1, h2, h3⟩

theorem target_obj_at_eq (info : Tgt → Given V) (l : List (Comp V)) (i : Nat) (t : Tgt) (c : Comp V) (h : l[i]? = some c) :
    target_obj_at info l i t = target_obj info c t := by
  induction l generalizing i with
  | nil => simp at h
  | cons d l ih =>
    cases i with
    | zero =>
      cases Option.some.inj h
      rw [target_obj_at]
    | succ i =>
      rw [target_obj_at]
      exact ih i (by simpa using h)

/-- Every listed target exists, is not hidden, goes by its name, and is the object found at its path. -/
theorem q_targets_spec (c : Comp V) : ∀ (info : Tgt → Given V) (t : Tgt) (n : String), (t, n) ∈ q_targets info c →
    ∃ p rev, t = p ++ [.qTarget] ∧ n = (info p).name ∧ (info p).hidden = false ∧ target_obj info c t = .ok (info p, rev) ∧
      before c t ≠ none := by
  induction c using Comp.ind with
  | thin th rev =>
    intro info t n h
    cases th with
    | target =>
      rw [q_targets] at h
      split at h
      · simp at h
      · rename_i hh
        obtain ⟨e1, e2⟩ := Prod.mk.inj (List.mem_singleton.mp h)
        exact ⟨[], rev, e1, e2, by simpa using hh, by rw [target_obj], by rw [e1]; simp [before]⟩
    | _ => simp [q_targets] at h
  | space L m =>
    intro info t n h
    simp [q_targets] at h
  | sys pos l ih =>
    intro info t n h
    rw [q_targets, mem_q_targets_from] at h
    obtain ⟨i, c, t', h1, h2, h3⟩ := h
    rw [Nat.zero_add] at h2 h3
    obtain ⟨p, rev, e1, e2, e3, e4, e5⟩ := ih c (List.mem_of_getElem? h1) _ _ _ h3
    refine ⟨.idx i :: p, rev, by rw [h2, e1]; rfl, e2, e3, ?_, ?_⟩
    · rw [h2, target_obj]
      exact (target_obj_at_eq _ l i t' c h1).trans e4
    · obtain ⟨K, hK⟩ := Option.ne_none_iff_exists'.mp e5
      rw [h2]
      unfold before
      simp [beforeL_eq, h1, hK]
  | mount s ih =>
    intro info t n h
    rw [q_targets] at h
    obtain ⟨x, hx, h⟩ := List.mem_map.mp h
    obtain ⟨h1, h2⟩ := Prod.mk.inj h
    obtain ⟨p, rev, e1, e2, e3, e4, e5⟩ := ih _ _ _ hx
    refine ⟨.idx 1 :: p, rev, by rw [← h1, e1]; rfl, by rw [← h2]; exact e2, e3, ?_, ?_⟩
    · rw [← h1, target_obj]
      · exact e4
      · simp
    · rw [← h1]
      unfold before
      simpa using e5

/-- Every beam target is listed unless it is hidden. -/
theorem q_targets_complete (c : Comp V) : ∀ (info : Tgt → Given V) (p : Tgt) (L : List (Leaf V)), before c (p ++ [.qTarget]) = some L →
    ∃ p', before c (p' ++ [.qTarget]) = some L ∧ ((info p').hidden = true ∨ (p' ++ [.qTarget], (info p').name) ∈ q_targets info c) := by
  induction c using Comp.ind with
  | thin th rev =>
    intro info p L h
    have hp : p = [] := by
      cases p with
      | nil => rfl
      | cons x p =>
        unfold before at h
        cases p <;> simp at h
    subst hp
    refine ⟨[], h, ?_⟩
    have ht : th = .target := by
      unfold before at h
      simp at h
      exact h.1
    subst ht
    rw [q_targets]
    cases hh : (info []).hidden <;> simp
  | space L' m =>
    intro info p L h
    unfold before at h
    cases p with
    | nil => simp at h
    | cons x p => cases p <;> simp at h
  | sys pos l ih =>
    intro info p L h
    cases p with
    | nil =>
      unfold before at h
      simp at h
    | cons x p =>
      cases x with
      | idx i =>
        obtain ⟨d, K, h1, h2, h3⟩ := before_idx h
        obtain ⟨p', e1, e2⟩ := ih d (List.mem_of_getElem? h1) (fun t => info (.idx i :: t)) p K h2
        refine ⟨.idx i :: p', ?_, ?_⟩
        · unfold before
          simp [beforeL_eq, h1, e1, h3]
        · rcases e2 with e2 | e2
          · exact Or.inl e2
          · refine Or.inr ?_
            rw [q_targets]
            exact mem_q_targets_from.mpr ⟨i, d, p' ++ [.qTarget], h1, by rw [Nat.zero_add]; rfl, by rw [Nat.zero_add]; exact e2⟩
      | _ =>
        unfold before at h
        cases p <;> simp at h
  | mount s ih =>
    intro info p L h
    cases p with
    | nil =>
      unfold before at h
      simp at h
    | cons x p =>
      have hne : ∀ tok : Tok, x :: (p ++ [.qTarget]) ≠ [tok] := by
        intro tok
        simp
      obtain ⟨h0, h1⟩ := before_mount (hne _) (hne _) h
      obtain ⟨p', e1, e2⟩ := ih (fun t => info (.idx 1 :: t)) p L h1
      refine ⟨.idx 1 :: p', ?_, ?_⟩
      · unfold before
        simpa using e1
      · rcases e2 with e2 | e2
        · exact Or.inl e2
        · refine Or.inr ?_
          rw [q_targets]
          exact List.mem_map.mpr ⟨_, e2, rfl⟩

end Comp

namespace Meas

variable {V : Type} [Field V] [LinearOrder V]

theorem name_map_fold (l : List (Tgt × String)) (d : Dict String Tgt) (hd : Dict.WF d) :
    Dict.WF (l.foldl (fun d x => Dict.set d x.2 x.1) d) ∧
    (∀ n t, Dict.get? (l.foldl (fun d x => Dict.set d x.2 x.1) d) n = some t → (t, n) ∈ l ∨ Dict.get? d n = some t) ∧
    ∀ n, (∃ t, (t, n) ∈ l) ∨ Dict.get? d n ≠ none → Dict.get? (l.foldl (fun d x => Dict.set d x.2 x.1) d) n ≠ none := by
  induction l generalizing d with
  | nil => exact ⟨hd, fun n t h => Or.inr h, fun n h => by rcases h with ⟨t, h⟩ | h; exact absurd h List.not_mem_nil; exact h⟩
  | cons x l ih =>
    obtain ⟨h1, h2, h3⟩ := ih (Dict.set d x.2 x.1) (Dict.WF_set hd _ _)
    refine ⟨h1, fun n t h => ?_, fun n h => ?_⟩
    · rcases h2 n t h with h | h
      · exact Or.inl (List.mem_cons_of_mem _ h)
      · rw [Dict.get?_set] at h
        split at h
        · rename_i e
          cases Option.some.inj h
          refine Or.inl ?_
          rw [← e]
          exact List.mem_cons_self
        · exact Or.inr h
    · refine h3 n ?_
      rw [Dict.get?_set]
      split
      · exact Or.inr (by simp)
      · rename_i e
        rcases h with ⟨t, h⟩ | h
        · rcases List.mem_cons.mp h with h | h
          · exact absurd (by rw [← h]) e
          · exact Or.inl ⟨t, h⟩
        · exact Or.inr h

theorem mapM_ok {α β : Type} {l : List α} {f : α → Except Err β} {g : α → β} (h : ∀ x ∈ l, f x = .ok (g x)) :
    l.mapM f = .ok (l.map g) := by
  induction l with
  | nil => rfl
  | cons x l ih =>
    rw [List.mapM_cons, h x List.mem_cons_self, ih fun y hy => h y (List.mem_cons_of_mem _ hy)]
    rfl

instance : Std.Total (fun a b : V × String => z_le a b = true) := ⟨by
  intro a b
  simp only [z_le, decide_eq_true_eq]
  rcases lt_trichotomy a.1 b.1 with h | h | h
  · exact Or.inl (Or.inl h)
  · rcases le_total a.2 b.2 with h' | h'
    · exact Or.inl (Or.inr ⟨h, h'⟩)
    · exact Or.inr (Or.inr ⟨h.symm, h'⟩)
  · exact Or.inr (Or.inl h)⟩

instance : IsTrans (V × String) (fun a b : V × String => z_le a b = true) := ⟨by
  intro a b c
  simp only [z_le, decide_eq_true_eq]
  rintro (h | ⟨h, h'⟩) (k | ⟨k, k'⟩)
  · exact Or.inl (h.trans k)
  · exact Or.inl (by rw [← k]; exact h)
  · exact Or.inl (by rw [h]; exact k)
  · exact Or.inr ⟨h.trans k, h'.trans k'⟩⟩

/-- C117.  `beam_targets` lists exactly the names of the targets that are not hidden, each once, with the position of a target of that
name, in the order of the positions. -/
theorem C117_targets [IsStrictOrderedRing V] (s : Meas V) {n : V} {parent : Bool} {e : El V} (hr : resolve n parent e = .ok s.layout) :
    ∃ l, s.beam_targets = .ok l ∧ (l.map Prod.snd).Nodup ∧ l.Pairwise (fun a b => a.1 < b.1 ∨ (a.1 = b.1 ∧ a.2 ≤ b.2)) ∧
      (∀ z name, (z, name) ∈ l → ∃ p L, Comp.before s.layout (p ++ [.qTarget]) = some L ∧ (s.info p).name = name ∧ (s.info p).hidden = false ∧
        total_length L = z ∧ (name ≠ "left" → name ≠ "right" → s.target_idx (.str name) = .ok (p ++ [.qTarget]))) ∧
      ∀ p L, Comp.before s.layout (p ++ [.qTarget]) = some L → ∃ p', Comp.before s.layout (p' ++ [.qTarget]) = some L ∧
        ((s.info p').hidden = true ∨ ∃ z, (z, (s.info p').name) ∈ l) := by
  have htile := C39_tiles n e parent s.layout hr
  obtain ⟨h1, h2, h3⟩ := name_map_fold (Comp.q_targets s.info s.layout) [] Dict.WF_nil
  change Dict.WF s.name_map at h1
  have hmem : ∀ x ∈ s.name_map, (x.2, x.1) ∈ Comp.q_targets s.info s.layout := by
    intro x hx
    rcases h2 x.1 x.2 (Dict.get?_of_mem h1 hx) with h | h
    · exact h
    · simp [Dict.get?] at h
  have hpos : ∀ x ∈ s.name_map, (do
      let z ← s.layout.target_pos x.2
      Except.ok (z, x.1)) = Except.ok ((total_length ((Comp.before s.layout x.2).getD []), x.1) : V × String) := by
    intro x hx
    obtain ⟨p, rev, e1, e2, e3, e4, e5⟩ := Comp.q_targets_spec s.layout s.info _ _ (hmem x hx)
    obtain ⟨K, hK⟩ := Option.ne_none_iff_exists'.mp e5
    rw [target_pos_spec s.layout htile _ K hK, hK]
    rfl
  refine ⟨(s.name_map.map fun x => (total_length ((Comp.before s.layout x.2).getD []), x.1)).insertionSort (fun a b => z_le a b = true),
    ?_, ?_, ?_, ?_, ?_⟩
  · unfold beam_targets
    rw [mapM_ok hpos]
    rfl
  · refine ((List.perm_insertionSort _ _).map Prod.snd).nodup_iff.mpr ?_
    rw [List.map_map]
    exact h1
  · have := List.pairwise_insertionSort (fun a b : V × String => z_le a b = true)
      (s.name_map.map fun x => (total_length ((Comp.before s.layout x.2).getD []), x.1))
    refine this.imp ?_
    intro a b h
    simpa only [z_le, decide_eq_true_eq] using h
  · intro z name h
    rw [List.mem_insertionSort] at h
    obtain ⟨x, hx, h⟩ := List.mem_map.mp h
    obtain ⟨k1, k2⟩ := Prod.mk.inj h
    obtain ⟨p, rev, e1, e2, e3, e4, e5⟩ := Comp.q_targets_spec s.layout s.info _ _ (hmem x hx)
    obtain ⟨K, hK⟩ := Option.ne_none_iff_exists'.mp e5
    rw [hK] at k1
    rw [e1] at hK
    refine ⟨p, K, hK, by rw [← e2, k2], e3, k1, fun hl hr => ?_⟩
    unfold target_idx
    dsimp only
    rw [if_neg hl, if_neg hr, ← k2, Dict.get?_of_mem h1 hx]
    exact congrArg Except.ok e1
  · intro p L h
    obtain ⟨p', e1, e2⟩ := Comp.q_targets_complete s.layout s.info p L h
    refine ⟨p', e1, ?_⟩
    rcases e2 with e2 | e2
    · exact Or.inl e2
    · right
      have := h3 _ (Or.inl ⟨_, e2⟩)
      change Dict.get? s.name_map _ ≠ none at this
      obtain ⟨t, ht⟩ := Option.ne_none_iff_exists'.mp this
      refine ⟨_, (List.mem_insertionSort _).mpr (List.mem_map.mpr ⟨_, Dict.mem_of_get? ht, rfl⟩)⟩

/-- C117.  `overlap()` without names is the overlap of the two targets when there are two, the left one first, and a KeyError otherwise. -/
theorem C117_default (pi : V) (sqrt : V → Except Err V) (s : Meas V) {l : List (V × String)} (h : s.beam_targets = .ok l) :
    (∀ a b, l = [a, b] → s.overlap pi sqrt none none = s.overlap pi sqrt (some (.str a.2)) (some (.str b.2))) ∧
    (l.length ≠ 2 → s.overlap pi sqrt none none = .error .keyError) := by
  constructor
  · rintro a b rfl
    unfold overlap
    simp only [bind, Except.bind, h]
  · intro hl
    unfold overlap
    simp only [bind, Except.bind, h]
    match l, hl with
    | [], _ => rfl
    | [_], _ => rfl
    | [_, _], hl => exact absurd rfl hl
    | _ :: _ :: _ :: _, _ => rfl

theorem list_loop_acc (pi : V) (sqrt : V → Except Err V) (s : Meas V) (tlist : List String) (l : List (V × String)) :
    ∀ (tprev : String) (acc : List V), s.list_loop pi sqrt tlist tprev acc l = (s.list_loop pi sqrt tlist tprev [] l).map (acc ++ ·) := by
  induction l with
  | nil => intro tprev acc; simp [list_loop, Except.map]
  | cons x l ih =>
    intro tprev acc
    unfold list_loop
    split
    · cases hp : s.power pi sqrt tprev x.2 with
      | error e => simp [bind, Except.bind, Except.map]
      | ok p =>
        simp only [bind, Except.bind]
        rw [ih x.2 (acc ++ [p]), ih x.2 ([] ++ [p])]
        cases s.list_loop pi sqrt tlist x.2 [] l <;> simp [Except.map]
    · simp only [bind, Except.bind]
      exact ih x.2 acc

theorem seq_loop_eq (pi : V) (sqrt : V → Except Err V) (s : Meas V) (tlist : List String) (l : List (V × String)) :
    ∀ (tprev : String) (olap : V), s.seq_loop pi sqrt tlist tprev olap l =
      (s.list_loop pi sqrt tlist tprev [] l).map (fun ps => olap * ps.prod) := by
  induction l with
  | nil => intro tprev olap; simp [list_loop, seq_loop, Except.map]
  | cons x l ih =>
    intro tprev olap
    unfold list_loop seq_loop
    split
    · cases hp : s.power pi sqrt tprev x.2 with
      | error e => simp [bind, Except.bind, Except.map]
      | ok p =>
        simp only [bind, Except.bind]
        rw [ih, list_loop_acc pi sqrt s tlist l x.2 ([] ++ [p])]
        cases s.list_loop pi sqrt tlist x.2 [] l <;> simp [Except.map, mul_assoc]
    · simp only [bind, Except.bind]
      exact ih x.2 olap

/-- C117.  `overlap_seq` is the product of the numbers of `overlap_list`, and an exception exactly when `overlap_list` is one. -/
theorem C117_seq (pi : V) (sqrt : V → Except Err V) (s : Meas V) (tlist : List String) :
    s.overlap_seq pi sqrt tlist = (s.overlap_list pi sqrt tlist).map List.prod := by
  unfold overlap_seq overlap_list
  cases hl : s.beam_targets with
  | error e => rfl
  | ok l =>
    simp only [bind, Except.bind]
    cases l with
    | nil => rfl
    | cons x l =>
      dsimp only
      rw [seq_loop_eq]
      simp only [one_mul]

end Meas
end Alm
