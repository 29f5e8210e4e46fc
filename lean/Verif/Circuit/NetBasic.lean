import Verif.Circuit.Net

/-!
# Where the couplings and the bonds of a circuit lead
-/

set_option linter.unusedSectionVars false

namespace Circuit
open Py Inject

section Targets
variable {P K F : Type} [DecidableEq P] [DecidableEq K] [Field F] [DecidableEq F]

/-- every coupling drives a port in `S` -/
def Into (S : P → Prop) (cs : List (Coupling P K F)) : Prop := ∀ c ∈ cs, S c.target.1

theorem total_zero {S : P → Prop} {cs : List (Coupling P K F)} (h : Into S cs) {t : P × K} (ht : ¬ S t.1)
    (x : P × K → F) : total cs x t = 0 := by
  unfold total
  apply List.sum_eq_zero
  intro v hv
  obtain ⟨c, hc, rfl⟩ := List.mem_map.1 hv
  unfold Coupling.into
  rw [if_neg]
  rintro rfl
  exact ht (h c hc)

theorem Into.append {S : P → Prop} {cs ds : List (Coupling P K F)} (h : Into S cs) (h' : Into S ds) :
    Into S (cs ++ ds) := by
  intro c hc
  rcases List.mem_append.1 hc with hc | hc
  · exact h c hc
  · exact h' c hc

theorem Into.mono {S S' : P → Prop} {cs : List (Coupling P K F)} (h : Into S cs) (hS : ∀ p, S p → S' p) :
    Into S' cs := fun c hc => hS _ (h c hc)

theorem blocks_into {S : P → Prop} {bs : List (Except Err (List (Coupling P K F)))} {cs : List (Coupling P K F)}
    (h : blocks bs = .ok cs) (hb : ∀ b ∈ bs, ∀ e, b = .ok e → Into S e) : Into S cs := by
  induction bs generalizing cs with
  | nil =>
    obtain rfl := blocks_nil h
    intro c hc
    cases hc
  | cons b bs ih =>
    obtain ⟨c, ds, h1, h2, rfl⟩ := blocks_cons h
    exact (hb b List.mem_cons_self c h1).append (ih h2 (fun b h => hb b (List.mem_cons_of_mem _ h)))

theorem keyed_targets {ks : List K} {p q : P} {g : K → Except Err F} {cs : List (Coupling P K F)}
    (h : ks.mapM (fun k => (g k).map (fun v => Coupling.edge (p, k) (q, k) v)) = .ok cs) : Into (· = q) cs := by
  induction ks generalizing cs with
  | nil =>
    rw [List.mapM_nil] at h
    injection h with h
    subst h
    intro c hc
    cases hc
  | cons k ks ih =>
    rw [List.mapM_cons] at h
    obtain ⟨c, hc, h1⟩ := bind_ok_inv h
    obtain ⟨ds, hd, h2⟩ := bind_ok_inv h1
    injection h2 with h2
    subst h2
    cases hg : g k with
    | error e => rw [hg] at hc; cases hc
    | ok v =>
      rw [hg] at hc
      injection hc with hc
      subst hc
      intro c hc
      rcases List.mem_cons.1 hc with rfl | hc
      · rfl
      · exact ih hd c hc

theorem per_key_targets {env : Env P K F} {p q : P} {g : K → Except Err F} {cs : List (Coupling P K F)}
    (h : per_key env p q g = .ok cs) : Into (· = q) cs := keyed_targets h

theorem dc_targets {env : Env P K F} {q : P} {test val : F} {cs : List (Coupling P K F)}
    (h : dc_source env q test val = .ok cs) : Into (· = q) cs := by
  unfold dc_source at h
  injection h with h
  subst h
  intro c hc
  split_ifs at hc
  · rw [List.mem_singleton] at hc
    subst hc
    rfl
  · cases hc

theorem source_targets {env : Env P K F} {q : P} {val : F} {cs : List (Coupling P K F)}
    (h : (Except.ok [Coupling.source (q, env.dc) val] : Except Err _) = .ok cs) : Into (· = q) cs := by
  injection h with h
  subst h
  intro c hc
  rw [List.mem_singleton] at hc
  subst hc
  rfl

theorem setup2_targets {env : Env P K F} {S11 S12 S21 S22 : F → Except Err F} {A B : Port P}
    {cs : List (Coupling P K F)} (h : setup2 env S11 S12 S21 S22 A B = .ok cs) : Into (· ∈ [A.o, B.o]) cs := by
  refine blocks_into h ?_
  simp only [List.forall_mem_cons]
  refine ⟨?_, ?_, ?_, ?_, by simp⟩ <;> intro e he <;> refine (per_key_targets he).mono ?_ <;> rintro p rfl <;> simp

theorem inject_entry_targets {env : Env P K F} {skip : Bool} {p q : P} {c : Except Err F} {cs : List (Coupling P K F)}
    (h : inject_entry env skip p q c = .ok cs) : Into (· = q) cs := by
  unfold inject_entry at h
  obtain ⟨css, hcss, h1⟩ := bind_ok_inv h
  injection h1 with h1
  subst h1
  clear h
  generalize env.keys p = ks at hcss
  induction ks generalizing css with
  | nil =>
    rw [List.mapM_nil] at hcss
    injection hcss with hcss
    subst hcss
    intro c hc
    cases hc
  | cons a ks ih =>
    rw [List.mapM_cons] at hcss
    obtain ⟨d, hd, h1⟩ := bind_ok_inv hcss
    obtain ⟨ds, hds, h2⟩ := bind_ok_inv h1
    injection h2 with h2
    subst h2
    rw [List.flatten_cons]
    refine Into.append ?_ (ih ds hds)
    obtain ⟨v, -, hv⟩ := bind_ok_inv hd
    injection hv with hv
    subst hv
    intro c hc
    split_ifs at hc
    · cases hc
    · rw [List.mem_singleton] at hc
      subst hc
      rfl

theorem matrix_inject_targets {env : Env P K F} {skip : Bool} {ps qs : List (Port P)} {M : Arr F}
    {cs : List (Coupling P K F)} (h : matrix_inject env skip ps qs M = .ok cs) : Into (· ∈ qs.map Port.o) cs := by
  refine blocks_into h ?_
  intro b hb e he
  obtain ⟨⟨p1, i1⟩, h1, hb⟩ := List.mem_flatMap.1 hb
  obtain ⟨⟨p2, i2⟩, h2, rfl⟩ := List.mem_map.1 hb
  refine (inject_entry_targets he).mono ?_
  rintro p rfl
  exact List.mem_map_of_mem (List.fst_mem_of_mem_zipIdx h2)

theorem mech_targets {env : Env P K F} {m : Mech P F} {cs : List (Coupling P K F)} (h : m.setup env = .ok cs) :
    Into (· ∈ m.ports.map Port.o) cs := by
  cases m with
  | one t A => exact (per_key_targets h).mono (by rintro p rfl; simp [Mech.ports])
  | two t A B =>
    replace h : setup2 env (fun f => seriesM_r env (t.mobility env f)) (fun f => seriesM_t env (t.mobility env f))
      (fun f => seriesM_t env (t.mobility env f)) (fun f => seriesM_r env (t.mobility env f)) A B = .ok cs := h
    exact setup2_targets h
  | cable l Loss rt A B =>
    refine blocks_into h ?_
    simp only [List.forall_mem_cons]
    refine ⟨?_, ?_, by simp⟩ <;> intro e he <;> refine (per_key_targets he).mono ?_ <;> rintro p rfl <;>
      simp [Mech.ports]
  | zconv y eps A B =>
    replace h : zconv_setup env y eps A B = .ok cs := h
    unfold zconv_setup at h
    exact setup2_targets h
  | lever d A B L =>
    obtain ⟨M, -, h⟩ := bind_ok_inv h
    exact matrix_inject_targets h
  | xyz dv d root A B L =>
    replace h : xyz_setup env dv d A B L = .ok cs := h
    unfold xyz_setup at h
    dsimp only at h
    split_ifs at h
    refine blocks_into h ?_
    simp only [List.forall_mem_cons]
    refine ⟨?_, ?_, ?_, ?_, ?_, ?_, ?_, ?_, ?_, by simp⟩ <;> intro e he <;>
      refine (matrix_inject_targets he).mono ?_ <;> intro q hq <;>
      simp only [V3.list, Mech.ports, List.map_cons, List.map_nil, List.mem_cons, List.not_mem_nil, or_false] at hq ⊢ <;>
      rcases hq with rfl | rfl | rfl <;> simp

/-- The couplings of an element drive only its own outgoing waves. -/
theorem elem_targets {env : Env P K F} {el : Elem P F} {cs : List (Coupling P K F)} (h : el.setup env = .ok cs) :
    Into (· ∈ el.ports.map Port.o) cs := by
  cases el with
  | one t A => exact (per_key_targets h).mono (by rintro p rfl; simp [Elem.ports])
  | two t A B =>
    replace h : setup2 env (fun f => t.Sr env f) (fun f => t.St env f) (fun f => t.St env f) (fun f => t.Sr env f)
      A B = .ok cs := h
    exact setup2_targets h
  | connection ps =>
    refine blocks_into h ?_
    intro b hb e he
    obtain ⟨⟨p1, i1⟩, h1, hb⟩ := List.mem_flatMap.1 hb
    obtain ⟨⟨p2, i2⟩, h2, rfl⟩ := List.mem_map.1 hb
    refine (per_key_targets he).mono ?_
    rintro p rfl
    exact List.mem_map_of_mem (List.fst_mem_of_mem_zipIdx h2)
  | cable l A B =>
    refine blocks_into h ?_
    simp only [List.forall_mem_cons]
    refine ⟨?_, ?_, by simp⟩ <;> intro e he <;> refine (per_key_targets he).mono ?_ <;> rintro p rfl <;>
      simp [Elem.ports]
  | voltageSource V_DC V A =>
    refine blocks_into h ?_
    simp only [List.forall_mem_cons]
    refine ⟨?_, ?_, ?_, by simp⟩ <;> intro e he
    · exact (per_key_targets he).mono (by rintro p rfl; simp [Elem.ports])
    · exact (dc_targets he).mono (by rintro p rfl; simp [Elem.ports])
    · exact (per_key_targets he).mono (by rintro p rfl; simp [Elem.ports])
  | currentSource I_DC V A =>
    refine blocks_into h ?_
    simp only [List.forall_mem_cons]
    refine ⟨?_, ?_, ?_, by simp⟩ <;> intro e he
    · exact (per_key_targets he).mono (by rintro p rfl; simp [Elem.ports])
    · exact (dc_targets he).mono (by rintro p rfl; simp [Elem.ports])
    · exact (per_key_targets he).mono (by rintro p rfl; simp [Elem.ports])
  | voltageSourceBalanced V_DC I_DC V p A B =>
    refine blocks_into h ?_
    simp only [List.forall_mem_cons]
    refine ⟨?_, ?_, ?_, ?_, ?_, ?_, ?_, ?_, ?_, by simp⟩ <;> intro e he
    · exact setup2_targets he
    · exact (dc_targets he).mono (by rintro p rfl; simp [Elem.ports])
    · exact (dc_targets he).mono (by rintro p rfl; simp [Elem.ports])
    · exact (dc_targets he).mono (by rintro p rfl; simp [Elem.ports])
    · exact (dc_targets he).mono (by rintro p rfl; simp [Elem.ports])
    · exact (per_key_targets he).mono (by rintro p rfl; simp [Elem.ports])
    · exact (per_key_targets he).mono (by rintro p rfl; simp [Elem.ports])
    · exact (per_key_targets he).mono (by rintro p rfl; simp [Elem.ports])
    · exact (per_key_targets he).mono (by rintro p rfl; simp [Elem.ports])
  | currentSourceBalanced I_DC p A B =>
    refine blocks_into h ?_
    simp only [List.forall_mem_cons]
    refine ⟨?_, ?_, ?_, ?_, ?_, by simp⟩ <;> intro e he
    · exact setup2_targets he
    · exact (source_targets he).mono (by rintro p rfl; simp [Elem.ports])
    · exact (source_targets he).mono (by rintro p rfl; simp [Elem.ports])
    · exact (per_key_targets he).mono (by rintro p rfl; simp [Elem.ports])
    · exact (per_key_targets he).mono (by rintro p rfl; simp [Elem.ports])
  | opAmp g p n out =>
    refine blocks_into h ?_
    simp only [List.forall_mem_cons]
    refine ⟨?_, ?_, ?_, ?_, ?_, by simp⟩ <;> intro e he <;> refine (per_key_targets he).mono ?_ <;> rintro p rfl <;>
      simp [Elem.ports]
  | mech m => exact mech_targets h

theorem blocks_append {bs bs' : List (Except Err (List (Coupling P K F)))} {cs : List (Coupling P K F)}
    (h : blocks (bs ++ bs') = .ok cs) : ∃ c d, blocks bs = .ok c ∧ blocks bs' = .ok d ∧ cs = c ++ d := by
  induction bs generalizing cs with
  | nil => exact ⟨[], cs, rfl, h, rfl⟩
  | cons b bs ih =>
    obtain ⟨c, ds, h1, h2, rfl⟩ := blocks_cons h
    obtain ⟨c', d, h3, h4, rfl⟩ := ih h2
    refine ⟨c ++ c', d, ?_, h4, (List.append_assoc ..).symm⟩
    unfold blocks
    rw [h1, h3]
    rfl

end Targets

section BondAll
variable {P : Type} [DecidableEq P]

/-- what the bonded set and the pairs hold after the waves `M o i` have been attached -/
structure Attached (st : BondSt P) (M : P → P → Prop) : Prop where
  wf : Dict.WF st.pairs
  get : ∀ o l, Dict.get? st.pairs o = some l ↔ ∃ i, M o i ∧ l = [i]
  fst : ∀ o i, M o i → o ∈ st.bonded
  snd : ∀ o i, M o i → i ∈ st.bonded
  unique : ∀ o o' i, M o i → M o' i → o = o'

theorem attach_ok {st st' : BondSt P} {o i : P} {M : P → P → Prop} (h : attach st o i = .ok st')
    (hM : Attached st M) : Attached st' (fun p q => M p q ∨ (p = o ∧ q = i)) := by
  unfold attach at h
  split_ifs at h with h1 h2
  injection h with h
  have hn : Dict.get? st.pairs o = none := by
    cases hg : Dict.get? st.pairs o with
    | none => rfl
    | some l =>
      obtain ⟨j, hj, -⟩ := (hM.get o l).1 hg
      exact absurd (hM.fst _ _ hj) h2
  rw [hn] at h
  subst h
  refine ⟨Dict.WF_set hM.wf _ _, ?_, ?_, ?_, ?_⟩
  · intro p l
    show Dict.get? (Dict.set st.pairs o [i]) p = some l ↔ _
    rw [Dict.get?_set]
    by_cases hp : o = p
    · subst hp
      rw [if_pos rfl]
      constructor
      · intro h
        cases h
        exact ⟨i, Or.inr ⟨rfl, rfl⟩, rfl⟩
      · rintro ⟨j, hj | ⟨-, rfl⟩, rfl⟩
        · exact absurd (hM.fst _ _ hj) h2
        · rfl
    · rw [if_neg hp, hM.get]
      constructor
      · rintro ⟨j, hj, rfl⟩
        exact ⟨j, Or.inl hj, rfl⟩
      · rintro ⟨j, hj | ⟨rfl, -⟩, rfl⟩
        · exact ⟨j, hj, rfl⟩
        · exact absurd rfl hp
  · rintro p q (h | ⟨rfl, rfl⟩)
    · exact List.mem_cons_of_mem _ (List.mem_cons_of_mem _ (hM.fst _ _ h))
    · exact List.mem_cons_of_mem _ List.mem_cons_self
  · rintro p q (h | ⟨rfl, rfl⟩)
    · exact List.mem_cons_of_mem _ (List.mem_cons_of_mem _ (hM.snd _ _ h))
    · exact List.mem_cons_self
  · rintro p p' q (h | ⟨rfl, rfl⟩) (h' | ⟨rfl, h'⟩)
    · exact hM.unique _ _ _ h h'
    · subst h'
      exact absurd (hM.snd _ _ h) h1
    · exact absurd (hM.snd _ _ h') h1
    · rfl

/-- the waves a list of bonds joins -/
def Joins (rb : List (Port P × Port P)) (o i : P) : Prop :=
  ∃ A B, ((A, B) ∈ rb ∨ (B, A) ∈ rb) ∧ o = A.o ∧ i = B.i

theorem bond_all_ok {rb : List (Port P × Port P)} {st st' : BondSt P} {M : P → P → Prop} (h : bond_all rb st = .ok st')
    (hM : Attached st M) : Attached st' (fun o i => M o i ∨ Joins rb o i) := by
  induction rb generalizing st M with
  | nil =>
    injection h with h
    subst h
    have : (fun o i => M o i ∨ Joins [] o i) = M := by
      funext o i
      simp [Joins]
    rw [this]
    exact hM
  | cons ab rb ih =>
    obtain ⟨A, B⟩ := ab
    unfold bond_all at h
    obtain ⟨s2, h2, h3⟩ := bind_ok_inv h
    unfold bond_old at h2
    obtain ⟨s1, h1, h2⟩ := bind_ok_inv h2
    have := ih h3 (attach_ok h2 (attach_ok h1 hM))
    have he : (fun o i => M o i ∨ Joins ((A, B) :: rb) o i) = fun o i =>
        ((M o i ∨ (o = A.o ∧ i = B.i)) ∨ (o = B.o ∧ i = A.i)) ∨ Joins rb o i := by
      funext o i
      apply propext
      constructor
      · rintro (h | ⟨A', B', h, rfl, rfl⟩)
        · exact Or.inl (Or.inl (Or.inl h))
        · rcases h with h | h
          · rcases List.mem_cons.1 h with h | h
            · cases h
              exact Or.inl (Or.inl (Or.inr ⟨rfl, rfl⟩))
            · exact Or.inr ⟨A', B', Or.inl h, rfl, rfl⟩
          · rcases List.mem_cons.1 h with h | h
            · cases h
              exact Or.inl (Or.inr ⟨rfl, rfl⟩)
            · exact Or.inr ⟨A', B', Or.inr h, rfl, rfl⟩
      · rintro (((h | ⟨rfl, rfl⟩) | ⟨rfl, rfl⟩) | ⟨A', B', h, rfl, rfl⟩)
        · exact Or.inl h
        · exact Or.inr ⟨A, B, Or.inl List.mem_cons_self, rfl, rfl⟩
        · exact Or.inr ⟨B, A, Or.inr List.mem_cons_self, rfl, rfl⟩
        · exact Or.inr ⟨A', B', h.imp (List.mem_cons_of_mem _) (List.mem_cons_of_mem _), rfl, rfl⟩
    rw [he]
    exact this

theorem attached_nil : Attached (⟨[], []⟩ : BondSt P) (fun _ _ => False) :=
  ⟨Dict.WF_nil, by simp, fun _ _ h => h.elim, fun _ _ h => h.elim, fun _ _ _ h => h.elim⟩

end BondAll

end Circuit
