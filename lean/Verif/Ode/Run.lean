import Verif.Ode.Basic

/-!
# The run of the integration in terms of the keys
-/

set_option linter.unusedSectionVars false

namespace Ode
open Py

variable {I K P R : Type} [DecidableEq I] [DecidableEq K] [DecidableEq P] [CommRing R] [Algebra ℚ R] [DecidableEq R]

/-- The right hand side for a key, an empty sum where there is none. -/
def rhs (dLt : Dict K (Lt K R)) (k : K) : Lt K R := (Dict.get? dLt k).getD []

/-- One key takes a step of Euler's method, the others stay. -/
def nudge (dLt : Dict K (Lt K R)) (h : ℚ) (x : K → R) (k : K) : K → R :=
  Function.update x k (x k + h • poly (rhs dLt k) x)

/-- The keys take their steps one after the other, each with the values the earlier ones left. -/
def sweep (dLt : Dict K (Lt K R)) (h : ℚ) (pks : List K) (x : K → R) : K → R := pks.foldl (nudge dLt h) x

/-- `N` sweeps of the step `1 / N`. -/
def integrate (dLt : Dict K (Lt K R)) (N : ℕ) (pks : List K) (x : K → R) : K → R := (sweep dLt (1 / N) pks)^[N] x

/-- A step of one key together with its tangent. -/
def nudge2 (dLt : Dict K (Lt K R)) (h : ℚ) (p : (K → R) × (K → R)) (k : K) : (K → R) × (K → R) :=
  (nudge dLt h p.1 k, Function.update p.2 k (p.2 k + h • dpoly (rhs dLt k) p.1 p.2))

/-- The integration together with its tangent. -/
def integrate2 (dLt : Dict K (Lt K R)) (N : ℕ) (pks : List K) (p : (K → R) × (K → R)) : (K → R) × (K → R) :=
  (fun p => pks.foldl (nudge2 dLt (1 / N)) p)^[N] p

theorem sweep2_fst (dLt : Dict K (Lt K R)) (h : ℚ) (pks : List K) (p : (K → R) × (K → R)) :
    (pks.foldl (nudge2 dLt h) p).1 = sweep dLt h pks p.1 := by
  unfold sweep
  induction pks generalizing p with
  | nil => rfl
  | cons k pks ih => rw [List.foldl_cons, ih]; rfl

theorem integrate2_fst (dLt : Dict K (Lt K R)) (N : ℕ) (pks : List K) (p : (K → R) × (K → R)) :
    (integrate2 dLt N pks p).1 = integrate dLt N pks p.1 := by
  unfold integrate2 integrate
  generalize hM : N = M
  conv_lhs => rw [← hM]
  have : ∀ m (p : (K → R) × (K → R)), ((fun p => pks.foldl (nudge2 dLt (1 / N)) p)^[m] p).1
      = (sweep dLt (1 / N) pks)^[m] p.1 := by
    intro m
    induction m with
    | zero => intro p; rfl
    | succ m ih => intro p; rw [Function.iterate_succ_apply, Function.iterate_succ_apply, ih, sweep2_fst]
  subst hM
  exact this N p

/-- A step of one index together with its tangent. -/
def bump (p : (ℕ → R) × (ℕ → R)) (T : ℕ × Lt ℕ R) : (ℕ → R) × (ℕ → R) :=
  (Function.update p.1 T.1 (p.1 T.1 + poly T.2 p.1), Function.update p.2 T.1 (p.2 T.1 + dpoly T.2 p.1 p.2))

theorem bump_nil (p : (ℕ → R) × (ℕ → R)) (i : ℕ) : bump p (i, []) = p := by
  simp [bump]

theorem pass_holds {base : List (ℕ × Lt ℕ R)} {s : Run R} {δ : ℕ → R} {p : (ℕ → R) × (ℕ → R)}
    (h : Holds base s δ p.1 p.2) :
    Holds base ((List.range base.length).foldl (step base) s) δ (base.foldl bump p).1 (base.foldl bump p).2 := by
  have : ∀ m, m ≤ base.length →
      Holds base ((List.range m).foldl (step base) s) δ ((base.take m).foldl bump p).1 ((base.take m).foldl bump p).2 := by
    intro m
    induction m with
    | zero => intro _; simpa using h
    | succ m ih =>
      intro hm
      have hm' : m < base.length := hm
      have hs := step_holds (ih hm'.le) hm'
      rw [List.range_succ, List.foldl_append, List.take_succ_eq_append_getElem hm', List.foldl_append]
      exact hs
  simpa using this base.length le_rfl

theorem run_holds (o : ExpMat K P R) {pkv : ℕ → Option R} {nz : List ℕ} (hnz : ∀ i, i ∉ nz → pkv i = none) (δ : ℕ → R) :
    Holds o.base (o.run pkv nz) δ ((fun p => o.base.foldl bump p)^[o.N_ode] (num pkv, δ)).1
      ((fun p => o.base.foldl bump p)^[o.N_ode] (num pkv, δ)).2 := by
  unfold ExpMat.run
  have h0 : Holds o.base { pkv := pkv, pkv_nz_set := nz, cached := lists o.base nz, dMexp := [] } δ (num pkv) δ :=
    ⟨rfl, hnz, rfl, by funext i; simp [tang, row]⟩
  have : ∀ m (s : Run R) (p : (ℕ → R) × (ℕ → R)), Holds o.base s δ p.1 p.2 →
      Holds o.base ((fun s => (List.range o.base.length).foldl (step o.base) s)^[m] s) δ
        ((fun p => o.base.foldl bump p)^[m] p).1 ((fun p => o.base.foldl bump p)^[m] p).2 := by
    intro m
    induction m with
    | zero => intro s p h; exact h
    | succ m ih =>
      intro s p h
      rw [Function.iterate_succ_apply, Function.iterate_succ_apply]
      exact ih _ _ (pass_holds h)
  exact this _ _ _ h0

/-! ### The table in the order of the indices -/

theorem base_eq {accel : Dict ℕ (Lt ℕ R)} (hw : Dict.WF accel) {n : ℕ} (hn : ∀ T ∈ accel, T.1 < n) :
    accel.mergeSort (fun a b => decide (a.1 ≤ b.1))
      = (List.range n).filterMap (fun i => (Dict.get? accel i).map fun lt => (i, lt)) := by
  have hperm : (accel.mergeSort (fun a b => decide (a.1 ≤ b.1))).Perm
      ((List.range n).filterMap (fun i => (Dict.get? accel i).map fun lt => (i, lt))) := by
    refine (List.mergeSort_perm _ _).trans ?_
    rw [List.perm_ext_iff_of_nodup]
    · rintro ⟨i, lt⟩
      rw [List.mem_filterMap]
      constructor
      · intro h
        exact ⟨i, List.mem_range.2 (hn _ h), by rw [Dict.get?_of_mem hw h]; rfl⟩
      · rintro ⟨j, _, hj⟩
        rw [Option.map_eq_some_iff] at hj
        obtain ⟨lt', hg, he⟩ := hj
        cases he
        exact Dict.mem_of_get? hg
    · exact List.Nodup.of_map _ hw
    · refine List.Nodup.filterMap ?_ List.nodup_range
      rintro a a' b hb hb'
      simp only [Option.mem_def, Option.map_eq_some_iff] at hb hb'
      obtain ⟨_, _, rfl⟩ := hb
      obtain ⟨_, _, he⟩ := hb'
      exact ((Prod.mk.injEq _ _ _ _).mp he).1.symm
  refine List.Perm.eq_of_pairwise ?_ ?_ ?_ hperm (le := fun a b => a.1 ≤ b.1)
  · rintro ⟨i, lt⟩ ⟨j, lt'⟩ ha hb h1 h2
    have hij : i = j := le_antisymm h1 h2
    subst hij
    have ha' := Dict.get?_of_mem hw ((List.mergeSort_perm _ _).mem_iff.1 ha)
    have hb' := Dict.get?_of_mem hw ((List.mergeSort_perm _ _).mem_iff.1 (hperm.mem_iff.2 hb))
    rw [ha'] at hb'
    rw [Option.some.inj hb']
  · have := List.pairwise_mergeSort (le := fun (a b : ℕ × Lt ℕ R) => decide (a.1 ≤ b.1))
      (fun a b c => by simp only [decide_eq_true_eq]; omega) (fun a b => by simp only [Bool.or_eq_true, decide_eq_true_eq]; omega)
      accel
    exact this.imp (by intro a b; simp)
  · rw [List.pairwise_filterMap]
    refine List.Pairwise.imp ?_ (List.pairwise_lt_range (n := n))
    intro a b hab x hx y hy
    rw [Option.map_eq_some_iff] at hx hy
    obtain ⟨_, _, rfl⟩ := hx
    obtain ⟨_, _, rfl⟩ := hy
    exact hab.le

theorem foldl_base {accel : Dict ℕ (Lt ℕ R)} (l : List ℕ) (p : (ℕ → R) × (ℕ → R)) :
    (l.filterMap (fun i => (Dict.get? accel i).map fun lt => (i, lt))).foldl bump p
      = l.foldl (fun p i => bump p (i, (Dict.get? accel i).getD [])) p := by
  induction l generalizing p with
  | nil => rfl
  | cons i l ih =>
    rw [List.filterMap_cons, List.foldl_cons]
    cases h : Dict.get? accel i with
    | none => simp only [Option.map_none, Option.getD_none, bump_nil]; exact ih p
    | some lt => simp only [Option.map_some, List.foldl_cons, Option.getD_some]; exact ih _

/-! ### From indices to keys -/

/-- The keys that occur in the equations (l.147-160). -/
def Mentions (dLt : Dict K (Lt K R)) (k : K) : Prop :=
  ∃ T ∈ dLt, k = T.1 ∨ ∃ t ∈ T.2, k ∈ t.2

/-- What `__init__` may be handed: the keys are those of the equations, each once, in any order. -/
structure Keyed (dLt : Dict K (Lt K R)) (pks : List K) : Prop where
  wf : Dict.WF dLt
  nodup : pks.Nodup
  mem : ∀ k, k ∈ pks ↔ Mentions dLt k

theorem idxOf_inj {pks : List K} {k k' : K} (hk : k ∈ pks) (h : pks.idxOf k' = pks.idxOf k) : k' = k := by
  have hlt := List.idxOf_lt_length_iff.2 hk
  have h1 : pks[pks.idxOf k]'hlt = k := List.getElem_idxOf hlt
  have h2 : pks[pks.idxOf k']'(h ▸ hlt) = k' := List.getElem_idxOf (h ▸ hlt)
  rw [← h1, ← h2]
  congr 1

theorem get?_map_key {V W : Type} (f : K → ℕ) (g : V → W) {d : Dict K V} {k : K}
    (h : ∀ k' ∈ Dict.keys d, f k' = f k → k' = k) :
    Dict.get? (d.map fun T => (f T.1, g T.2)) (f k) = (Dict.get? d k).map g := by
  induction d with
  | nil => rfl
  | cons T d ih =>
    rw [List.map_cons, Dict.get?_cons, Dict.get?_cons]
    by_cases hk : T.1 = k
    · rw [if_pos hk, if_pos (by rw [hk])]; rfl
    · rw [if_neg hk, if_neg (fun hf => hk (h _ (by simp [Dict.keys]) hf))]
      exact ih fun k' hk' => h k' (by simp only [Dict.keys, List.map_cons, List.mem_cons] at hk' ⊢; exact Or.inr hk')

theorem Keyed.key_mem {dLt : Dict K (Lt K R)} {pks : List K} (hK : Keyed dLt pks) {k : K} (hk : k ∈ Dict.keys dLt) :
    k ∈ pks := by
  rw [hK.mem]
  obtain ⟨T, hT, rfl⟩ := List.mem_map.1 hk
  exact ⟨T, hT, Or.inl rfl⟩

theorem Keyed.map_wf {W : Type} {dLt : Dict K (Lt K R)} {pks : List K} (hK : Keyed dLt pks) (g : Lt K R → W) :
    Dict.WF (dLt.map fun T => (pks.idxOf T.1, g T.2)) := by
  unfold Dict.WF Dict.keys
  rw [List.map_map]
  have : (Prod.fst ∘ fun T : K × Lt K R => (pks.idxOf T.1, g T.2)) = (fun k => pks.idxOf k) ∘ Prod.fst := rfl
  rw [this, ← List.map_map]
  refine List.Nodup.map_on ?_ hK.wf
  intro a _ b hb hab
  exact idxOf_inj (hK.key_mem hb) hab

theorem Keyed.get?_accel {dLt : Dict K (Lt K R)} {pks : List K} (hK : Keyed dLt pks) (N : ℕ) {k : K} (hk : k ∈ pks) :
    (Dict.get? (Dict.ofList (dLt.map fun T => (pks.idxOf T.1, lt_sort_collect (lt_remap pks N T.2)))) (pks.idxOf k)).getD []
      = lt_sort_collect (lt_remap pks N (rhs dLt k)) := by
  unfold Dict.ofList
  rw [Dict.get?_update_of_WF _ (hK.map_wf fun lt => lt_sort_collect (lt_remap pks N lt)),
    get?_map_key (fun k => pks.idxOf k) (fun lt => lt_sort_collect (lt_remap pks N lt)) (fun k' _ h => idxOf_inj hk h)]
  unfold rhs
  cases Dict.get? dLt k <;> simp [lt_remap, lt_sort_collect, lt_sorted]

theorem Keyed.accel_lt {dLt : Dict K (Lt K R)} {pks : List K} (hK : Keyed dLt pks) (N : ℕ) :
    ∀ T ∈ Dict.ofList (dLt.map fun T => (pks.idxOf T.1, lt_sort_collect (lt_remap pks N T.2))), T.1 < pks.length := by
  rintro ⟨i, lt⟩ hT
  have h := Dict.get?_of_mem (Dict.WF_ofList _) hT
  unfold Dict.ofList at h
  rw [Dict.get?_update_of_WF _ (hK.map_wf fun lt => lt_sort_collect (lt_remap pks N lt))] at h
  simp only [Dict.get?_nil, Option.or_none] at h
  obtain ⟨T, hT', he⟩ := List.mem_map.1 (Dict.mem_of_get? h)
  cases he
  exact List.idxOf_lt_length_iff.2 (hK.key_mem (List.mem_map.2 ⟨T, hT', rfl⟩))

/-- A step of an index is the step of its key. -/
theorem bump_key {dLt : Dict K (Lt K R)} {pks : List K} (N : ℕ) {k : K} (hk : k ∈ pks) (p : (ℕ → R) × (ℕ → R)) :
    ((bump p (pks.idxOf k, lt_sort_collect (lt_remap pks N (rhs dLt k)))).1 ∘ pks.idxOf,
      (bump p (pks.idxOf k, lt_sort_collect (lt_remap pks N (rhs dLt k)))).2 ∘ pks.idxOf)
      = nudge2 dLt (1 / N) (p.1 ∘ pks.idxOf, p.2 ∘ pks.idxOf) k := by
  have hupd : ∀ (x : ℕ → R) (v : R), (Function.update x (pks.idxOf k) v) ∘ (fun k => pks.idxOf k)
      = Function.update (x ∘ (fun k => pks.idxOf k)) k v := by
    intro x v
    funext k'
    simp only [Function.comp, Function.update_apply]
    by_cases h : k' = k
    · rw [if_pos (by rw [h]), if_pos h]
    · rw [if_neg (fun hi => h (idxOf_inj hk hi)), if_neg h]
  unfold bump nudge2 nudge
  simp only [poly_sort_collect, dpoly_sort_collect, poly_remap, dpoly_remap]
  exact Prod.ext (hupd _ _) (hupd _ _)

theorem map_idxOf {pks : List K} (h : pks.Nodup) : pks.map (fun k => pks.idxOf k) = List.range pks.length := by
  apply List.ext_getElem
  · simp
  · intro i h1 h2
    rw [List.getElem_map, List.getElem_range]
    exact h.idxOf_getElem i (by simpa using h1)

theorem sweep_key {dLt : Dict K (Lt K R)} {pks : List K} (hK : Keyed dLt pks) {N : ℕ} {in_map : Dict K P}
    {out_map : Dict K (Option P)} {o : ExpMat K P R} (ho : init dLt in_map out_map N pks = .ok o)
    (p : (ℕ → R) × (ℕ → R)) :
    ((o.base.foldl bump p).1 ∘ pks.idxOf, (o.base.foldl bump p).2 ∘ pks.idxOf)
      = pks.foldl (nudge2 dLt (1 / N)) (p.1 ∘ pks.idxOf, p.2 ∘ pks.idxOf) := by
  unfold init at ho
  split_ifs at ho with hN
  injection ho with ho
  have hb : o.base = (List.range pks.length).filterMap (fun i => (Dict.get? o.dLt_accel i).map fun lt => (i, lt)) := by
    refine base_eq ?_ ?_
    · rw [← ho]; exact Dict.WF_ofList _
    · rw [← ho]; exact hK.accel_lt N
  rw [hb, foldl_base, ← map_idxOf hK.nodup, List.foldl_map]
  have : ∀ l : List K, (∀ k ∈ l, k ∈ pks) → ∀ p : (ℕ → R) × (ℕ → R),
      ((l.foldl (fun p k => bump p (pks.idxOf k, (Dict.get? o.dLt_accel (pks.idxOf k)).getD [])) p).1 ∘ pks.idxOf,
        (l.foldl (fun p k => bump p (pks.idxOf k, (Dict.get? o.dLt_accel (pks.idxOf k)).getD [])) p).2 ∘ pks.idxOf)
        = l.foldl (nudge2 dLt (1 / N)) (p.1 ∘ pks.idxOf, p.2 ∘ pks.idxOf) := by
    intro l
    induction l with
    | nil => intro _ p; rfl
    | cons k l ih =>
      intro hl p
      have hk := hl k List.mem_cons_self
      rw [List.foldl_cons, List.foldl_cons, ih fun k hk => hl k (List.mem_cons_of_mem _ hk)]
      congr 1
      rw [← bump_key N hk]
      have : (Dict.get? o.dLt_accel (pks.idxOf k)).getD [] = lt_sort_collect (lt_remap pks N (rhs dLt k)) := by
        rw [← ho]; exact hK.get?_accel N hk
      rw [this]
  exact this pks (fun _ h => h) p

/-- The loops compute the integration and its tangent. -/
theorem run_spec {dLt : Dict K (Lt K R)} {pks : List K} (hK : Keyed dLt pks) {N : ℕ} {in_map : Dict K P}
    {out_map : Dict K (Option P)} {o : ExpMat K P R} (ho : init dLt in_map out_map N pks = .ok o)
    {pkv : ℕ → Option R} {nz : List ℕ} (hnz : ∀ i, i ∉ nz → pkv i = none) (δ : ℕ → R) :
    (num (o.run pkv nz).pkv ∘ pks.idxOf, tang (o.run pkv nz).dMexp δ ∘ pks.idxOf)
      = integrate2 dLt N pks (num pkv ∘ pks.idxOf, δ ∘ pks.idxOf) := by
  have h := run_holds o hnz δ
  rw [h.vals, h.tang]
  have hN : o.N_ode = N := by
    unfold init at ho
    split_ifs at ho with hN
    injection ho with ho
    rw [← ho]
  rw [hN]
  unfold integrate2
  generalize num pkv = x
  have : ∀ m (p : (ℕ → R) × (ℕ → R)),
      (((fun p => o.base.foldl bump p)^[m] p).1 ∘ pks.idxOf, ((fun p => o.base.foldl bump p)^[m] p).2 ∘ pks.idxOf)
        = (fun p => pks.foldl (nudge2 dLt (1 / N)) p)^[m] (p.1 ∘ pks.idxOf, p.2 ∘ pks.idxOf) := by
    intro m
    induction m with
    | zero => intro p; rfl
    | succ m ih =>
      intro p
      rw [Function.iterate_succ_apply, Function.iterate_succ_apply, ih, sweep_key hK ho]
  exact this N (x, δ)

end Ode
