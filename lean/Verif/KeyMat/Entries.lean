import Verif.KeyMat.Props

/-!
# C26: what the write calls store, and the index dictionary
-/

set_option linter.unusedSectionVars false

namespace KeyMat
open Py

variable {K V : Type} [LinearOrder K]

theorem vWrite_entries {w : World K V} {i : Nat} {v : Vec K V} (hi : w.vs[i]? = some v) (k : K) (c : Option V → V) :
    ∃ v', (vWrite w i k c).1.vs[i]? = some v' ∧ v'.space = v.space ∧ v'.mcount = v.mcount ∧
      (∀ j, j ≠ i → (vWrite w i k c).1.vs[j]? = w.vs[j]?) ∧ (vWrite w i k c).1.ms = w.ms ∧
      ((∃ s, w.sp[v.space]? = some s ∧ (s.frozen = false ∨ k ∈ s.keys)) →
        (vWrite w i k c).2 = .ok .unit ∧
        (∃ s', (vWrite w i k c).1.sp[v.space]? = some s' ∧ k ∈ s'.keys) ∧
        ∀ k', Dict.get? v'.data k' = if k' = k then some (c (Dict.get? v.data k)) else Dict.get? v.data k') ∧
      ((∃ s, w.sp[v.space]? = some s ∧ s.frozen = true ∧ k ∉ s.keys) →
        (vWrite w i k c).2 = .error .runtime ∧ v'.data = v.data) := by
  have hlt := lt_of_getElem? hi
  unfold vWrite
  rw [hi]
  dsimp only
  cases hk : keysAddAt w.sp v.space [k] with
  | error e =>
    dsimp only
    refine ⟨{ v with count := bump v.count }, ?_, rfl, rfl, ?_, rfl, ?_, ?_⟩
    · rw [List.getElem?_set, if_pos rfl, if_pos hlt]
    · intro j hj; rw [List.getElem?_set, if_neg (Ne.symm hj)]
    · rintro ⟨s, hs, hf⟩
      exfalso
      unfold keysAddAt Space.keysAdd at hk
      rw [hs] at hk
      dsimp only at hk
      rcases hf with hf | hf
      · rw [if_neg (by rw [hf]; exact Bool.false_ne_true)] at hk; cases hk
      · by_cases hfr : s.frozen = true
        · rw [if_pos hfr, if_pos (by simpa using hf)] at hk; cases hk
        · rw [if_neg hfr] at hk; cases hk
    · rintro ⟨s, hs, hf, hn⟩
      unfold keysAddAt Space.keysAdd at hk
      rw [hs] at hk
      dsimp only at hk
      rw [if_pos hf, if_neg (by simpa using hn)] at hk
      have he : Err.runtime = e := Except.error.inj hk
      rw [he]
      exact ⟨rfl, rfl⟩
  | ok sp =>
    dsimp only
    refine ⟨{ v with count := bump v.count, data := Dict.set v.data k (c (Dict.get? v.data k)) }, ?_, rfl, rfl, ?_, rfl, ?_, ?_⟩
    · rw [List.getElem?_set, if_pos rfl, if_pos hlt]
    · intro j hj; rw [List.getElem?_set, if_neg (Ne.symm hj)]
    · rintro ⟨s, hs, _⟩
      refine ⟨rfl, ?_, ?_⟩
      · unfold keysAddAt at hk
        rw [hs] at hk
        dsimp only at hk
        cases hk2 : s.keysAdd [k] with
        | error e => rw [hk2] at hk; cases hk
        | ok s' =>
          rw [hk2] at hk
          replace hk : w.sp.set v.space s' = sp := Except.ok.inj hk
          subst hk
          exact ⟨s', by rw [List.getElem?_set, if_pos rfl, if_pos (lt_of_getElem? hs)], (keysAdd_mem hk2 k).mpr (Or.inr (by simp))⟩
      · intro k'
        rw [Dict.get?_set]
        by_cases hkk : k = k'
        · rw [if_pos hkk, if_pos hkk.symm]
        · rw [if_neg hkk, if_neg (Ne.symm hkk)]
    · rintro ⟨s, hs, hf, hn⟩
      exfalso
      unfold keysAddAt Space.keysAdd at hk
      rw [hs] at hk
      dsimp only at hk
      rw [if_pos hf, if_neg (by simpa using hn)] at hk
      cases hk

/-- **C26.** `v[k] = x` stores `x` under `k` and nothing else, and makes `k` known to the space; refused (with nothing stored)
exactly when the frozen space lacks `k`. -/
theorem C26_vector_write [Zero V] [Add V] [Mul V] (w : World K V) (i : Nat) (v : Vec K V) (s : Space K) (hi : w.vs[i]? = some v)
    (hs : w.sp[v.space]? = some s) (k : K) (x : V) :
    ∃ v', (step (.vSet i k x) w).1.vs[i]? = some v' ∧ v'.space = v.space ∧
      (∀ j, j ≠ i → (step (.vSet i k x) w).1.vs[j]? = w.vs[j]?) ∧
      ((s.frozen = false ∨ k ∈ s.keys) → (step (.vSet i k x) w).2 = .ok .unit ∧
        (∃ s', (step (.vSet i k x) w).1.sp[v.space]? = some s' ∧ k ∈ s'.keys) ∧
        ∀ k', Dict.get? v'.data k' = if k' = k then some x else Dict.get? v.data k') ∧
      ((s.frozen = true ∧ k ∉ s.keys) → (step (.vSet i k x) w).2 = .error .runtime ∧ v'.data = v.data) := by
  obtain ⟨v', h1, h2, _, h3, _, h4, h5⟩ := vWrite_entries hi k (fun _ => x)
  exact ⟨v', h1, h2, h3, fun h => h4 ⟨s, hs, h⟩, fun h => h5 ⟨s, hs, h.1, h.2⟩⟩

/-- **C26.** `v.add_by(k, x)` adds `x` to the entry, which counts as 0 when it was not stored. -/
theorem C26_vector_add [AddMonoid V] [Mul V] (w : World K V) (i : Nat) (v : Vec K V) (s : Space K) (hi : w.vs[i]? = some v)
    (hs : w.sp[v.space]? = some s) (k : K) (x : V) (hok : s.frozen = false ∨ k ∈ s.keys) :
    ∃ v', (step (.vAddBy i k x) w).1.vs[i]? = some v' ∧ v'.space = v.space ∧ (step (.vAddBy i k x) w).2 = .ok .unit ∧
      (Dict.get? v'.data k).isSome ∧
      ∀ k', (Dict.get? v'.data k').getD 0 = (Dict.get? v.data k').getD 0 + if k' = k then x else 0 := by
  obtain ⟨v', h1, h2, _, _, _, h4, _⟩ := vWrite_entries hi k (fun o => match o with | some y => y + x | none => x)
  obtain ⟨h5, _, h6⟩ := h4 ⟨s, hs, hok⟩
  refine ⟨v', h1, h2, h5, ?_, ?_⟩
  · rw [h6, if_pos rfl]; rfl
  · intro k'
    rw [h6]
    by_cases hk : k' = k
    · subst hk
      rw [if_pos rfl, if_pos rfl]
      cases Dict.get? v.data k' with
      | none => exact (zero_add x).symm
      | some y => rfl
    · rw [if_neg hk, if_neg hk, add_zero]

theorem mWrite_entries {w : World K V} {i : Nat} {m : Mat K V} (hi : w.ms[i]? = some m) (kf kt : K) (c : Option V → V) :
    ∃ m', (mWrite w i kf kt c).1.ms[i]? = some m' ∧ m'.sfrom = m.sfrom ∧ m'.sto = m.sto ∧
      (∀ j, j ≠ i → (mWrite w i kf kt c).1.ms[j]? = w.ms[j]?) ∧
      ((∃ sf st, w.sp[m.sfrom]? = some sf ∧ w.sp[m.sto]? = some st ∧ (sf.frozen = false ∨ kf ∈ sf.keys) ∧
          (st.frozen = false ∨ kt ∈ st.keys)) →
        (mWrite w i kf kt c).2 = .ok .unit ∧
        ∀ k', Dict.get? m'.data k' = if k' = (kf, kt) then some (c (Dict.get? m.data (kf, kt))) else Dict.get? m.data k') ∧
      (∀ e, (mWrite w i kf kt c).2 = .error e → m'.data = m.data) := by
  have hlt := lt_of_getElem? hi
  unfold mWrite
  rw [hi]
  dsimp only
  have hget : ∀ m' : Mat K V, (w.ms.set i m')[i]? = some m' := by
    intro m'; rw [List.getElem?_set, if_pos rfl, if_pos hlt]
  cases hk : keysAddAt w.sp m.sfrom [kf] with
  | error e =>
    dsimp only
    refine ⟨{ m with count := bump m.count }, hget _, rfl, rfl, ?_, ?_, fun _ _ => rfl⟩
    · intro j hj; rw [List.getElem?_set, if_neg (Ne.symm hj)]
    · rintro ⟨sf, st, hsf, _, hf, _⟩
      exfalso
      unfold keysAddAt Space.keysAdd at hk
      rw [hsf] at hk
      dsimp only at hk
      rcases hf with hf | hf
      · rw [if_neg (by rw [hf]; exact Bool.false_ne_true)] at hk; cases hk
      · by_cases hfr : sf.frozen = true
        · rw [if_pos hfr, if_pos (by simpa using hf)] at hk; cases hk
        · rw [if_neg hfr] at hk; cases hk
  | ok sp =>
    dsimp only
    cases hk2 : keysAddAt sp m.sto [kt] with
    | error e =>
      dsimp only
      refine ⟨{ m with count := bump m.count }, hget _, rfl, rfl, ?_, ?_, fun _ _ => rfl⟩
      · intro j hj; rw [List.getElem?_set, if_neg (Ne.symm hj)]
      · rintro ⟨sf, st, hsf, hst, _, ht⟩
        exfalso
        -- the state of the target space after the first addition
        have hst' : ∃ st', sp[m.sto]? = some st' ∧ (st'.frozen = false ∨ kt ∈ st'.keys) := by
          unfold keysAddAt at hk
          rw [hsf] at hk
          dsimp only at hk
          cases hk3 : sf.keysAdd [kf] with
          | error e => rw [hk3] at hk; cases hk
          | ok sf' =>
            rw [hk3] at hk
            replace hk : w.sp.set m.sfrom sf' = sp := Except.ok.inj hk
            subst hk
            by_cases hft : m.sfrom = m.sto
            · rw [hft] at hsf ⊢
              rw [hst] at hsf
              cases hsf
              refine ⟨sf', by rw [List.getElem?_set, if_pos rfl, if_pos (lt_of_getElem? hst)], ?_⟩
              rcases keysAdd_spec hk3 with ⟨_, rfl, _⟩ | ⟨hf, rfl⟩
              · exact ht
              · exact Or.inl hf
            · exact ⟨st, by rw [List.getElem?_set, if_neg hft]; exact hst, ht⟩
        obtain ⟨st', hs', ht'⟩ := hst'
        unfold keysAddAt Space.keysAdd at hk2
        rw [hs'] at hk2
        dsimp only at hk2
        rcases ht' with hf | hf
        · rw [if_neg (by rw [hf]; exact Bool.false_ne_true)] at hk2; cases hk2
        · by_cases hfr : st'.frozen = true
          · rw [if_pos hfr, if_pos (by simpa using hf)] at hk2; cases hk2
          · rw [if_neg hfr] at hk2; cases hk2
    | ok sp2 =>
      dsimp only
      rw [List.set_set]
      refine ⟨_, hget _, rfl, rfl, ?_, ?_, ?_⟩
      · intro j hj; rw [List.getElem?_set, if_neg (Ne.symm hj)]
      · intro _
        refine ⟨rfl, ?_⟩
        intro k'
        dsimp only
        rw [Dict.get?_set]
        by_cases hkk : (kf, kt) = k'
        · rw [if_pos hkk, if_pos hkk.symm]
        · rw [if_neg hkk, if_neg (Ne.symm hkk)]
      · intro e he; cases he

/-- **C26.** `m[kf, kt] = x` stores `x` under the pair and nothing else. -/
theorem C26_matrix_write [Zero V] [Add V] [Mul V] (w : World K V) (i : Nat) (m : Mat K V) (sf st : Space K)
    (hi : w.ms[i]? = some m) (hsf : w.sp[m.sfrom]? = some sf) (hst : w.sp[m.sto]? = some st) (kf kt : K) (x : V)
    (hf : sf.frozen = false ∨ kf ∈ sf.keys) (ht : st.frozen = false ∨ kt ∈ st.keys) :
    ∃ m', (step (.mSet i kf kt x) w).1.ms[i]? = some m' ∧ m'.sfrom = m.sfrom ∧ m'.sto = m.sto ∧
      (step (.mSet i kf kt x) w).2 = .ok .unit ∧
      ∀ k', Dict.get? m'.data k' = if k' = (kf, kt) then some x else Dict.get? m.data k' := by
  obtain ⟨m', h1, h2, h3, _, h4, _⟩ := mWrite_entries hi kf kt (fun _ => x)
  obtain ⟨h5, h6⟩ := h4 ⟨sf, st, hsf, hst, hf, ht⟩
  exact ⟨m', h1, h2, h3, h5, h6⟩

/-- **C26.** `m.multiply_by(kf, kt, x)` multiplies a stored entry by `x`; an entry that was not stored becomes `x`. -/
theorem C26_matrix_multiply [Zero V] [Add V] [Mul V] (w : World K V) (i : Nat) (m : Mat K V) (sf st : Space K)
    (hi : w.ms[i]? = some m) (hsf : w.sp[m.sfrom]? = some sf) (hst : w.sp[m.sto]? = some st) (kf kt : K) (x : V)
    (hf : sf.frozen = false ∨ kf ∈ sf.keys) (ht : st.frozen = false ∨ kt ∈ st.keys) :
    ∃ m', (step (.mMulBy i kf kt x) w).1.ms[i]? = some m' ∧ m'.sfrom = m.sfrom ∧ m'.sto = m.sto ∧
      (step (.mMulBy i kf kt x) w).2 = .ok .unit ∧
      (∀ y, Dict.get? m.data (kf, kt) = some y → Dict.get? m'.data (kf, kt) = some (y * x)) ∧
      (Dict.get? m.data (kf, kt) = none → Dict.get? m'.data (kf, kt) = some x) ∧
      ∀ k', k' ≠ (kf, kt) → Dict.get? m'.data k' = Dict.get? m.data k' := by
  obtain ⟨m', h1, h2, h3, _, h4, _⟩ := mWrite_entries hi kf kt (fun o => match o with | some y => y * x | none => x)
  obtain ⟨h5, h6⟩ := h4 ⟨sf, st, hsf, hst, hf, ht⟩
  refine ⟨m', h1, h2, h3, h5, ?_, ?_, ?_⟩
  · intro y hy; rw [h6, if_pos rfl, hy]
  · intro hn; rw [h6, if_pos rfl, hn]
  · intro k' hk; rw [h6, if_neg hk]

/-- **C26.** `m.set_nullable(kt, kf, x)` stores when both keys are known, and otherwise does nothing but say so. -/
theorem C26_matrix_nullable [Zero V] [Add V] [Mul V] (w : World K V) (i : Nat) (m : Mat K V) (sf st : Space K)
    (hi : w.ms[i]? = some m) (hsf : w.sp[m.sfrom]? = some sf) (hst : w.sp[m.sto]? = some st) (kf kt : K) (x : V) :
    ∃ m', (step (.mSetNullable i kt kf x) w).1.ms[i]? = some m' ∧ (step (.mSetNullable i kt kf x) w).1.sp = w.sp ∧
      ((kf ∈ sf.keys ∧ kt ∈ st.keys) → (step (.mSetNullable i kt kf x) w).2 = .ok (.bool true) ∧
        ∀ k', Dict.get? m'.data k' = if k' = (kf, kt) then some x else Dict.get? m.data k') ∧
      (¬ (kf ∈ sf.keys ∧ kt ∈ st.keys) → (step (.mSetNullable i kt kf x) w).2 = .ok (.bool false) ∧ m'.data = m.data) := by
  have hlt := lt_of_getElem? hi
  have hc1 : containsAt w.sp m.sfrom kf = decide (kf ∈ sf.keys) := by unfold containsAt; rw [hsf]
  have hc2 : containsAt w.sp m.sto kt = decide (kt ∈ st.keys) := by unfold containsAt; rw [hst]
  dsimp only [step]
  rw [hi]
  dsimp only
  rw [hc1, hc2]
  have hget : ∀ m' : Mat K V, (w.ms.set i m')[i]? = some m' := by
    intro m'; rw [List.getElem?_set, if_pos rfl, if_pos hlt]
  by_cases h : kf ∈ sf.keys ∧ kt ∈ st.keys
  · rw [if_neg (by simp [h.1, h.2])]
    refine ⟨_, hget _, rfl, fun _ => ⟨rfl, ?_⟩, fun hn => absurd h hn⟩
    intro k'
    dsimp only
    rw [Dict.get?_set]
    by_cases hkk : (kf, kt) = k'
    · rw [if_pos hkk, if_pos hkk.symm]
    · rw [if_neg hkk, if_neg (Ne.symm hkk)]
  · have hb : (!decide (kt ∈ st.keys) || !decide (kf ∈ sf.keys)) = true := by
      rw [not_and_or] at h
      rcases h with h | h <;> simp [h]
    rw [if_pos hb]
    exact ⟨_, hget _, rfl, fun hn => absurd hn h, fun _ => ⟨rfl, rfl⟩⟩

theorem del_spec {X Y : Type} [DecidableEq X] (d : Dict X Y) (k : X) :
    (k ∈ Dict.keys d → ∃ d', Dict.del d k = .ok d' ∧ ∀ k', Dict.get? d' k' = if k' = k then none else Dict.get? d k') ∧
      (k ∉ Dict.keys d → Dict.del d k = .error .keyError) := by
  unfold Dict.del
  constructor
  · intro h
    rw [if_pos ((Dict.has_iff d k).mpr h)]
    refine ⟨_, rfl, ?_⟩
    intro k'
    rw [Dict.get?_erase]
    by_cases hk : k = k'
    · rw [if_pos hk, if_pos hk.symm]
    · rw [if_neg hk, if_neg (Ne.symm hk)]
  · intro h
    rw [if_neg]
    rw [Dict.has_iff]
    exact h

/-- **C26.** `del v[k]` removes the entry, and is a KeyError without effect when there is none. -/
theorem C26_vector_delete [Zero V] [Add V] [Mul V] (w : World K V) (i : Nat) (v : Vec K V) (hi : w.vs[i]? = some v) (k : K) :
    ∃ v', (step (.vDel i k) w).1.vs[i]? = some v' ∧ v'.space = v.space ∧ (step (.vDel i k) w).1.sp = w.sp ∧
      (k ∈ Dict.keys v.data → (step (.vDel i k) w).2 = .ok .unit ∧
        ∀ k', Dict.get? v'.data k' = if k' = k then none else Dict.get? v.data k') ∧
      (k ∉ Dict.keys v.data → (step (.vDel i k) w).2 = .error .keyError ∧ v'.data = v.data) := by
  have hlt := lt_of_getElem? hi
  have hget : ∀ v' : Vec K V, (w.vs.set i v')[i]? = some v' := by
    intro m'; rw [List.getElem?_set, if_pos rfl, if_pos hlt]
  dsimp only [step]
  rw [hi]
  dsimp only
  by_cases h : k ∈ Dict.keys v.data
  · obtain ⟨d', hd, hs⟩ := (del_spec v.data k).1 h
    rw [hd]
    exact ⟨_, hget _, rfl, rfl, fun _ => ⟨rfl, hs⟩, fun hn => absurd h hn⟩
  · rw [(del_spec v.data k).2 h]
    exact ⟨_, hget _, rfl, rfl, fun hn => absurd hn h, fun _ => ⟨rfl, rfl⟩⟩

/-- **C26.** `del m[kf, kt]` likewise. -/
theorem C26_matrix_delete [Zero V] [Add V] [Mul V] (w : World K V) (i : Nat) (m : Mat K V) (hi : w.ms[i]? = some m) (kf kt : K) :
    ∃ m', (step (.mDel i kf kt) w).1.ms[i]? = some m' ∧ m'.sfrom = m.sfrom ∧ m'.sto = m.sto ∧ (step (.mDel i kf kt) w).1.sp = w.sp ∧
      ((kf, kt) ∈ Dict.keys m.data → (step (.mDel i kf kt) w).2 = .ok .unit ∧
        ∀ k', Dict.get? m'.data k' = if k' = (kf, kt) then none else Dict.get? m.data k') ∧
      ((kf, kt) ∉ Dict.keys m.data → (step (.mDel i kf kt) w).2 = .error .keyError ∧ m'.data = m.data) := by
  have hlt := lt_of_getElem? hi
  have hget : ∀ m' : Mat K V, (w.ms.set i m')[i]? = some m' := by
    intro m'; rw [List.getElem?_set, if_pos rfl, if_pos hlt]
  dsimp only [step]
  rw [hi]
  dsimp only
  by_cases h : (kf, kt) ∈ Dict.keys m.data
  · obtain ⟨d', hd, hs⟩ := (del_spec m.data (kf, kt)).1 h
    rw [hd]
    exact ⟨_, hget _, rfl, rfl, rfl, fun _ => ⟨rfl, hs⟩, fun hn => absurd h hn⟩
  · rw [(del_spec m.data (kf, kt)).2 h]
    exact ⟨_, hget _, rfl, rfl, rfl, fun hn => absurd hn h, fun _ => ⟨rfl, rfl⟩⟩

theorem nestInner_entries (t : Nat) (kf : K) (l : Dict K V) : ∀ (sp : List (Space K)) (d : Dict (K × K) V), Dict.WF l →
    (nestInner t kf l sp d).2.2 = .ok () → ∀ a b, Dict.get? (nestInner t kf l sp d).2.1 (a, b) =
      if a = kf then (Dict.get? l b).or (Dict.get? d (a, b)) else Dict.get? d (a, b) := by
  induction l with
  | nil => intro sp d _ _ a b; split <;> rfl
  | cons kv l ih =>
    intro sp d hl h a b
    obtain ⟨kt, x⟩ := kv
    have hl' : kt ∉ Dict.keys l ∧ Dict.WF l := by
      unfold Dict.WF Dict.keys at hl
      rw [List.map_cons, List.nodup_cons] at hl
      exact hl
    unfold nestInner at h ⊢
    cases hk : keysAddAt sp t [kt] with
    | error e => rw [hk] at h; cases h
    | ok sp' =>
      rw [hk] at h
      dsimp only at h ⊢
      rw [ih sp' _ hl'.2 h, Dict.get?_cons]
      dsimp only
      by_cases ha : a = kf
      · subst ha
        rw [if_pos rfl, if_pos rfl]
        by_cases hb : kt = b
        · subst hb
          rw [if_pos rfl, (Dict.get?_eq_none_iff l kt).mpr hl'.1, Dict.get?_set, if_pos rfl]
          rfl
        · rw [if_neg hb, Dict.get?_set_ne]
          intro he; exact hb (Prod.mk.inj he).2
      · rw [if_neg ha, if_neg ha, Dict.get?_set_ne]
        intro he; exact ha (Prod.mk.inj he).1.symm

theorem nestOuter_entries (f t : Nat) (l : Dict K (Dict K V)) : ∀ (sp : List (Space K)) (d : Dict (K × K) V), Dict.WF l →
    (∀ kv ∈ l, Dict.WF kv.2) → (nestOuter f t l sp d).2.2 = .ok () → ∀ a b, Dict.get? (nestOuter f t l sp d).2.1 (a, b) =
      (Dict.get? ((Dict.get? l a).getD []) b).or (Dict.get? d (a, b)) := by
  induction l with
  | nil => intro sp d _ _ _ a b; rfl
  | cons kv l ih =>
    intro sp d hl hin h a b
    obtain ⟨kf, l0⟩ := kv
    have hl' : kf ∉ Dict.keys l ∧ Dict.WF l := by
      unfold Dict.WF Dict.keys at hl
      rw [List.map_cons, List.nodup_cons] at hl
      exact hl
    unfold nestOuter at h ⊢
    cases hk : keysAddAt sp f [kf] with
    | error e => rw [hk] at h; cases h
    | ok sp' =>
      rw [hk] at h
      dsimp only at h ⊢
      have hi := nestInner_entries t kf l0 sp' d (hin (kf, l0) (by simp))
      cases hn : nestInner t kf l0 sp' d with
      | mk sp2 r =>
        obtain ⟨d2, r⟩ := r
        rw [hn] at h hi
        cases r with
        | error e => cases h
        | ok u =>
          dsimp only at h hi ⊢
          rw [ih sp2 d2 hl'.2 (fun kv hkv => hin kv (List.mem_cons_of_mem _ hkv)) h, hi rfl, Dict.get?_cons]
          dsimp only
          by_cases ha : kf = a
          · subst ha
            rw [if_pos rfl, if_pos rfl, (Dict.get?_eq_none_iff l kf).mpr hl'.1]
            rfl
          · rw [if_neg ha, if_neg (Ne.symm ha)]

/-- **C26.** `fill_from_nested_map` stores every entry of the nested dictionary and nothing else. -/
theorem C26_matrix_fill [Zero V] [Add V] [Mul V] (w : World K V) (i : Nat) (m : Mat K V) (hi : w.ms[i]? = some m)
    (nested : Dict K (Dict K V)) (hwf : Dict.WF nested) (hin : ∀ kv ∈ nested, Dict.WF kv.2)
    (hok : (step (.mFillNested i nested) w).2 = .ok .unit) :
    ∃ m', (step (.mFillNested i nested) w).1.ms[i]? = some m' ∧ m'.sfrom = m.sfrom ∧ m'.sto = m.sto ∧
      ∀ a b, Dict.get? m'.data (a, b) = (Dict.get? ((Dict.get? nested a).getD []) b).or (Dict.get? m.data (a, b)) := by
  have hlt := lt_of_getElem? hi
  dsimp only [step] at hok ⊢
  rw [hi] at hok ⊢
  dsimp only at hok ⊢
  have he := nestOuter_entries m.sfrom m.sto nested w.sp m.data hwf hin
  cases hn : nestOuter m.sfrom m.sto nested w.sp m.data with
  | mk sp r =>
    obtain ⟨d, r⟩ := r
    rw [hn] at hok he
    cases r with
    | error e => cases hok
    | ok u => exact ⟨⟨m.sfrom, m.sto, d, bump m.count, m.mcount, m.marr, m.midx⟩,
        by rw [List.getElem?_set, if_pos rfl, if_pos hlt], rfl, rfl, he rfl⟩

/-! ### The index dictionary -/

theorem fillIdx_frozen {f t : Nat} {sp : List (Space K)} {sf st : Space K} {kmf lf kmt lt} (hokf : SpaceOK sf) (hokt : SpaceOK st)
    (hif : sp[f]? = some sf) (hit : sp[t]? = some st) (hmf : sf.maps = some (kmf, lf)) (hmt : st.maps = some (kmt, lt))
    (d : Dict (K × K) V) (hd : Dict.WF d) (hall : ∀ k ∈ Dict.keys d, k.1 ∈ sf.keys ∧ k.2 ∈ st.keys) :
    ∀ m : Dict (Nat × Nat) V, ∃ m', fillIdx f t d sp m = (sp, .ok m') ∧
      ∀ a b, Dict.get? m' (a, b) = match lf[a]?, lt[b]? with
        | some kf, some kt => (Dict.get? d (kf, kt)).or (Dict.get? m (a, b))
        | _, _ => Dict.get? m (a, b) := by
  induction d with
  | nil =>
    intro m
    refine ⟨m, rfl, ?_⟩
    intro a b
    split <;> rfl
  | cons kv d ih =>
    intro m
    obtain ⟨⟨kf, kt⟩, x⟩ := kv
    have hd' : (kf, kt) ∉ Dict.keys d ∧ Dict.WF d := by
      unfold Dict.WF Dict.keys at hd
      rw [List.map_cons, List.nodup_cons] at hd
      exact hd
    have hk0 : Dict.keys (((kf, kt), x) :: d) = (kf, kt) :: Dict.keys d := rfl
    rw [hk0] at hall
    have hkf : kf ∈ sf.keys := (hall (kf, kt) (by simp)).1
    have hkt : kt ∈ st.keys := (hall (kf, kt) (by simp)).2
    obtain ⟨a0, ha, hla⟩ := mem_index hokf hmf hkf
    obtain ⟨b0, hb, hlb⟩ := mem_index hokt hmt hkt
    have hlf : lf.Nodup := (hokf.so _ _ hmf).nodup
    have hlt : lt.Nodup := (hokt.so _ _ hmt).nodup
    have huf : ∀ a, lf[a]? = some kf → a = a0 := by
      intro a h1
      have hlt1 := lt_of_getElem? h1
      have hlt2 := lt_of_getElem? hla
      rw [List.getElem?_eq_getElem hlt1] at h1
      rw [List.getElem?_eq_getElem hlt2] at hla
      exact (List.Nodup.getElem_inj_iff hlf).mp ((Option.some.inj h1).trans (Option.some.inj hla).symm)
    have hut : ∀ a, lt[a]? = some kt → a = b0 := by
      intro a h1
      have hlt1 := lt_of_getElem? h1
      have hlt2 := lt_of_getElem? hlb
      rw [List.getElem?_eq_getElem hlt1] at h1
      rw [List.getElem?_eq_getElem hlt2] at hlb
      exact (List.Nodup.getElem_inj_iff hlt).mp ((Option.some.inj h1).trans (Option.some.inj hlb).symm)
    obtain ⟨m', hm1, hm2⟩ := ih hd'.2 (fun k hk => hall k (List.mem_cons_of_mem _ hk)) (Dict.set m (a0, b0) x)
    refine ⟨m', ?_, ?_⟩
    · rw [fillIdx, keyMapAt_frozen hif hmf, ha]
      dsimp only
      rw [keyMapAt_frozen hit hmt, hb]
      exact hm1
    · intro a b
      rw [hm2]
      cases h1 : lf[a]? with
      | none =>
        dsimp only
        rw [Dict.get?_set_ne]
        intro he
        rw [← (Prod.mk.inj he).1, hla] at h1
        cases h1
      | some kf' =>
        cases h2 : lt[b]? with
        | none =>
          dsimp only
          rw [Dict.get?_set_ne]
          intro he
          rw [← (Prod.mk.inj he).2, hlb] at h2
          cases h2
        | some kt' =>
          dsimp only
          rw [Dict.get?_cons]
          dsimp only
          by_cases hkk : (kf, kt) = (kf', kt')
          · obtain ⟨rfl, rfl⟩ := Prod.mk.inj hkk
            rw [if_pos rfl, (Dict.get?_eq_none_iff d _).mpr hd'.1, huf a h1, hut b h2, Dict.get?_set, if_pos rfl]
            rfl
          · rw [if_neg hkk, Dict.get?_set_ne]
            intro he
            apply hkk
            obtain ⟨he1, he2⟩ := Prod.mk.inj he
            rw [← he1, hla] at h1
            rw [← he2, hlb] at h2
            rw [Option.some.inj h1, Option.some.inj h2]

/-- **C26.** The first reading of `idx_dict` lists the present entries under their index pairs. -/
theorem C26_idx_dict [Zero V] [Add V] [Mul V] (ops : List (Op K V)) (i : Nat) (m : Mat K V) (sf st : Space K)
    (hi : (after ops).ms[i]? = some m) (hfirst : m.midx = none) (hsf : (after ops).sp[m.sfrom]? = some sf)
    (hst : (after ops).sp[m.sto]? = some st) (hff : sf.frozen = true) (hft : st.frozen = true)
    (hall : ∀ k ∈ Dict.keys m.data, k.1 ∈ sf.keys ∧ k.2 ∈ st.keys) :
    ∃ d lf lt, (step (.mIdxDict i) (after ops)).2 = .ok (.idx d) ∧ Sorted sf.keys lf ∧ Sorted st.keys lt ∧
      ∀ a b x, Dict.get? d (a, b) = some x ↔ ∃ kf kt, lf[a]? = some kf ∧ lt[b]? = some kt ∧ Dict.get? m.data (kf, kt) = some x := by
  have hok := after_ok ops
  obtain ⟨kmf, lf, hmf⟩ := maps_of_frozen hff
  obtain ⟨kmt, lt, hmt⟩ := maps_of_frozen hft
  have hokf := hok.hp.ok _ sf hsf
  have hokt := hok.hp.ok _ st hst
  obtain ⟨d, hd1, hd2⟩ := fillIdx_frozen hokf hokt hsf hst hmf hmt m.data (hok.ms i m hi).wf hall []
  refine ⟨d, lf, lt, ?_, hokf.so _ _ hmf, hokt.so _ _ hmt, ?_⟩
  · dsimp only [step]
    rw [hi]
    dsimp only
    rw [hfirst]
    dsimp only
    rw [hd1]
  · intro a b x
    rw [hd2]
    cases h1 : lf[a]? with
    | none =>
      constructor
      · intro h; cases h
      · rintro ⟨_, _, h, _⟩; cases h
    | some kf =>
      cases h2 : lt[b]? with
      | none =>
        constructor
        · intro h; cases h
        · rintro ⟨_, _, _, h, _⟩; cases h
      | some kt =>
        dsimp only
        have : Dict.get? ([] : Dict (Nat × Nat) V) (a, b) = none := rfl
        rw [this, Option.or_none]
        constructor
        · intro h; exact ⟨kf, kt, rfl, rfl, h⟩
        · rintro ⟨_, _, h3, h4, h5⟩
          rw [Option.some.inj h3, Option.some.inj h4]
          exact h5

/-- **C26 (disagreement).** `idx_dict` is memoized for good: later writes do not show. -/
theorem C26_idx_stale :
    let ops : List (Op Nat Int) := [.newSpace [7] true, .newMat 0 0 [], .mIdxDict 0, .mSet 0 7 7 5]
    (step (.mIdxDict 0) (after ops)).2 = .ok (.idx []) ∧
      ((after ops).ms[0]?).map (fun m => m.data) = some [((7, 7), 5)] := ⟨rfl, rfl⟩

/-! ### Concrete cases -/

/-- a history with two spaces, writes, a failing write and a read in between -/
def exOps : List (Op Nat Int) :=
  [.newSpace [] false, .newVec 0 [], .vSet 0 5 10, .vSet 0 2 20, .vArray 0, .vSet 0 9 1, .vAddBy 0 5 1]

example : (step (.vArray 0) (after exOps)).2 = .ok (.vec [20, 11]) := by decide +kernel
example : (step (.vSet 0 9 1) (after exOps)).2 = .error .runtime := by decide +kernel
example : ∃ v, (after exOps).vs[0]? = some v ∧ v.data ≠ [] := by
  refine ⟨_, rfl, ?_⟩
  decide +kernel

/-- a matrix on two spaces, rows are the target keys -/
def exMat : List (Op Nat Int) :=
  [.newSpace [1, 2] true, .newSpace [3] true, .newMat 0 1 [], .mSet 0 1 3 4, .mArray 0, .mMulBy 0 1 3 2, .mSet 0 2 3 7]

example : (step (.mArray 0) (after exMat)).2 = .ok (.mat [[8, 7]]) := by decide +kernel
example : (step (.mIdxDict 0) (after exMat)).2 = .ok (.idx [((0, 0), 8), ((1, 0), 7)]) := by decide +kernel
example : ((after exMat).sp[0]?).map (fun s => s.frozen) = some true := by decide +kernel

example : (step (.mFillNested 0 [(1, [(3, 9)])]) (after exMat)).2 = .ok .unit := by decide +kernel

/-- an inverse space -/
example : (step (.inverse 1) (after ([.newSpace [1, 2] false, .inverse 0] : List (Op Nat Int)))).2 = .ok (.ref 0) := by decide +kernel

end KeyMat
