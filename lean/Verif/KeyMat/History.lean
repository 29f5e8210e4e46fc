import Verif.KeyMat.Arrays
import Mathlib.Data.Nat.Basic
import Mathlib.Data.List.Perm.Subperm

/-!
# What holds after any sequence of calls
-/

set_option linter.unusedSectionVars false

namespace KeyMat
open Py

variable {K V : Type} [LinearOrder K]

/-- A memoized vector array is the array of the entries, or (unless `E`) the zero array of an empty vector, possibly too short. -/
def VMemo [Zero V] (E : Prop) (s : Space K) (d : Dict K V) (arr : List V) : Prop :=
  (s.frozen = true ∧ (∀ k ∈ Dict.keys d, k ∈ s.keys) ∧ IsVecArray s.keys d arr) ∨
    (¬ E ∧ d = [] ∧ ∃ m, m ≤ s.keys.length ∧ arr = List.replicate m 0)

structure VecOK [Zero V] (E : Prop) (sp : List (Space K)) (v : Vec K V) : Prop where
  wf : Dict.WF v.data
  le : ∀ n m, v.count = some n → v.mcount = some m → m ≤ n
  sp : ∃ s, sp[v.space]? = some s ∧ (∀ n, v.count = some n → v.mcount = some n → VMemo E s v.data v.marr)

def MMemo [Zero V] (E : Prop) (sf st : Space K) (d : Dict (K × K) V) (arr : List (List V)) : Prop :=
  (sf.frozen = true ∧ st.frozen = true ∧ (∀ k ∈ Dict.keys d, k.1 ∈ sf.keys ∧ k.2 ∈ st.keys) ∧ IsMatArray sf.keys st.keys d arr) ∨
    (¬ E ∧ d = [] ∧ ∃ m n, m ≤ st.keys.length ∧ n ≤ sf.keys.length ∧ arr = List.replicate m (List.replicate n 0))

structure MatOK [Zero V] (E : Prop) (sp : List (Space K)) (v : Mat K V) : Prop where
  wf : Dict.WF v.data
  le : ∀ n m, v.count = some n → v.mcount = some m → m ≤ n
  sp : ∃ sf st, sp[v.sfrom]? = some sf ∧ sp[v.sto]? = some st ∧
    (∀ n, v.count = some n → v.mcount = some n → MMemo E sf st v.data v.marr)

/-- Everything is in order; `EV i s`: the vector `i` on the space `s` was made after `s` was frozen, `EM` likewise. -/
structure WorldOK [Zero V] (EV : Nat → Nat → Prop) (EM : Nat → Nat → Nat → Prop) (w : World K V) : Prop where
  hp : HeapOK w.sp
  vs : ∀ (i : Nat) (v : Vec K V), w.vs[i]? = some v → VecOK (EV i v.space) w.sp v
  ms : ∀ (i : Nat) (m : Mat K V), w.ms[i]? = some m → MatOK (EM i m.sfrom m.sto) w.sp m
  ev : ∀ (i j : Nat) (s : Space K), EV i j → w.sp[j]? = some s → s.frozen = true
  em : ∀ (i j k : Nat) (s : Space K), EM i j k → w.sp[j]? = some s ∨ w.sp[k]? = some s → s.frozen = true

variable [Zero V] {EV : Nat → Nat → Prop} {EM : Nat → Nat → Nat → Prop}

theorem HLe.length {sp sp' : List (Space K)} (h : HLe sp sp') (i : Nat) (hi : i < sp.length) : i < sp'.length := by
  obtain ⟨s, hs, _⟩ := h i sp[i] (List.getElem?_eq_getElem hi)
  exact lt_of_getElem? hs

theorem keys_length_le {s s' : Space K} (h : Le s s') (hn : s.keys.Nodup) : s.keys.length ≤ s'.keys.length := by
  have hsub : s.keys ⊆ s'.keys := fun k hk => h.ks k hk
  exact (List.Nodup.subperm hn hsub).length_le

theorem VecOK.mono {E : Prop} {sp sp' : List (Space K)} {v : Vec K V} (hp : HeapOK sp) (hle : HLe sp sp') (h : VecOK E sp v) :
    VecOK E sp' v := by
  refine ⟨h.wf, h.le, ?_⟩
  obtain ⟨s, hs, hm⟩ := h.sp
  obtain ⟨s', hs', hl⟩ := hle _ s hs
  refine ⟨s', hs', ?_⟩
  intro n h1 h2
  rcases hm n h1 h2 with ⟨hf, hk, ha⟩ | ⟨hE, hd, m, hm, ha⟩
  · left
    refine ⟨hl.frozen hf, ?_, ?_⟩
    · intro k hk'; exact hl.ks k (hk k hk')
    · rw [(hl.fr hf).1]; exact ha
  · right
    exact ⟨hE, hd, m, le_trans hm (keys_length_le hl (hp.ok _ s hs).nd), ha⟩

theorem MatOK.mono {E : Prop} {sp sp' : List (Space K)} {v : Mat K V} (hp : HeapOK sp) (hle : HLe sp sp') (h : MatOK E sp v) :
    MatOK E sp' v := by
  refine ⟨h.wf, h.le, ?_⟩
  obtain ⟨sf, st, hsf, hst, hm⟩ := h.sp
  obtain ⟨sf', hsf', hlf⟩ := hle _ sf hsf
  obtain ⟨st', hst', hlt⟩ := hle _ st hst
  refine ⟨sf', st', hsf', hst', ?_⟩
  intro n h1 h2
  rcases hm n h1 h2 with ⟨hff, hft, hk, ha⟩ | ⟨hE, hd, a, b, ha, hb, he⟩
  · left
    refine ⟨hlf.frozen hff, hlt.frozen hft, ?_, ?_⟩
    · intro k hk'; exact ⟨hlf.ks _ (hk k hk').1, hlt.ks _ (hk k hk').2⟩
    · rw [(hlf.fr hff).1, (hlt.fr hft).1]; exact ha
  · right
    exact ⟨hE, hd, a, b, le_trans ha (keys_length_le hlt (hp.ok _ st hst).nd), le_trans hb (keys_length_le hlf (hp.ok _ sf hsf).nd), he⟩

/-- after `_memoize_count += 1` the memo does not count -/
theorem VecOK.touch {E : Prop} {sp : List (Space K)} {v : Vec K V} (h : VecOK E sp v) {d : Dict K V} (hd : Dict.WF d) :
    VecOK E sp { v with count := bump v.count, data := d } := by
  obtain ⟨s, hs, _⟩ := h.sp
  cases hc : v.count with
  | none =>
    refine ⟨hd, ?_, s, hs, ?_⟩
    · intro n m h1; cases h1
    · intro n h1; cases h1
  | some c =>
    refine ⟨hd, ?_, s, hs, ?_⟩
    · intro n m h1 h2
      have := h.le c m hc h2
      have h1' : c + 1 = n := Option.some.inj h1
      omega
    · intro n h1 h2
      have := h.le c n hc h2
      have h1' : c + 1 = n := Option.some.inj h1
      omega

theorem MatOK.touch {E : Prop} {sp : List (Space K)} {v : Mat K V} (h : MatOK E sp v) {d : Dict (K × K) V} (hd : Dict.WF d) :
    MatOK E sp { v with count := bump v.count, data := d } := by
  obtain ⟨sf, st, hsf, hst, _⟩ := h.sp
  cases hc : v.count with
  | none =>
    refine ⟨hd, ?_, sf, st, hsf, hst, ?_⟩
    · intro n m h1; cases h1
    · intro n h1; cases h1
  | some c =>
    refine ⟨hd, ?_, sf, st, hsf, hst, ?_⟩
    · intro n m h1 h2
      have := h.le c m hc h2
      have h1' : c + 1 = n := Option.some.inj h1
      omega
    · intro n h1 h2
      have := h.le c n hc h2
      have h1' : c + 1 = n := Option.some.inj h1
      omega

theorem VecOK.nan {E : Prop} {sp : List (Space K)} {v : Vec K V} (h : VecOK E sp v) : VecOK E sp { v with count := none } := by
  obtain ⟨s, hs, _⟩ := h.sp
  exact ⟨h.wf, (fun n m h1 => by cases h1), s, hs, (fun n h1 => by cases h1)⟩

theorem MatOK.nan {E : Prop} {sp : List (Space K)} {v : Mat K V} (h : MatOK E sp v) : MatOK E sp { v with count := none } := by
  obtain ⟨sf, st, hsf, hst, _⟩ := h.sp
  exact ⟨h.wf, (fun n m h1 => by cases h1), sf, st, hsf, hst, (fun n h1 => by cases h1)⟩

theorem get_set {X : Type} {l : List X} {i j : Nat} {x y : X} (h : (l.set i x)[j]? = some y) :
    l[j]? = some y ∨ (j = i ∧ y = x) := by
  rw [List.getElem?_set] at h
  split at h
  · rename_i hij
    split at h
    · exact Or.inr ⟨hij.symm, (Option.some.inj h).symm⟩
    · cases h
  · exact Or.inl h

theorem get_append {X : Type} {l : List X} {j : Nat} {x y : X} (h : (l ++ [x])[j]? = some y) :
    l[j]? = some y ∨ (j = l.length ∧ y = x) := by
  by_cases hlt : j < l.length
  · rw [List.getElem?_append_left hlt] at h; exact Or.inl h
  · rw [List.getElem?_append_right (by omega)] at h
    have h1 := lt_of_getElem? h
    simp only [List.length_singleton] at h1
    have hj : j = l.length := by omega
    subst hj
    have hm := List.mem_of_getElem? h
    rw [List.mem_singleton] at hm
    exact Or.inr ⟨rfl, hm⟩

theorem world_step {w w' : World K V} (h : WorldOK EV EM w) (hp : HeapOK w'.sp) (hle : HLe w.sp w'.sp)
    (hv : ∀ (i : Nat) (v : Vec K V), w'.vs[i]? = some v → w.vs[i]? = some v ∨ VecOK (EV i v.space) w'.sp v)
    (hm : ∀ (i : Nat) (m : Mat K V), w'.ms[i]? = some m → w.ms[i]? = some m ∨ MatOK (EM i m.sfrom m.sto) w'.sp m)
    (hev : ∀ (i j : Nat), EV i j → j < w.sp.length) (hem : ∀ (i j k : Nat), EM i j k → j < w.sp.length ∧ k < w.sp.length) :
    WorldOK EV EM w' := by
  have hback : ∀ (j : Nat) (s : Space K), w'.sp[j]? = some s → j < w.sp.length → ∃ s0, w.sp[j]? = some s0 ∧ Le s0 s := by
    intro j s hs hj
    obtain ⟨s', hs', hl⟩ := hle j w.sp[j] (List.getElem?_eq_getElem hj)
    rw [hs] at hs'
    cases hs'
    exact ⟨_, List.getElem?_eq_getElem hj, hl⟩
  refine ⟨hp, ?_, ?_, ?_, ?_⟩
  · intro i v hi
    rcases hv i v hi with h1 | h1
    · exact (h.vs i v h1).mono h.hp hle
    · exact h1
  · intro i v hi
    rcases hm i v hi with h1 | h1
    · exact (h.ms i v h1).mono h.hp hle
    · exact h1
  · intro i j s he hs
    obtain ⟨s0, hs0, hl⟩ := hback j s hs (hev i j he)
    exact hl.frozen (h.ev i j s0 he hs0)
  · intro i j k s he hs
    rcases hs with hs | hs
    · obtain ⟨s0, hs0, hl⟩ := hback j s hs (hem i j k he).1
      exact hl.frozen (h.em i j k s0 he (Or.inl hs0))
    · obtain ⟨s0, hs0, hl⟩ := hback k s hs (hem i j k he).2
      exact hl.frozen (h.em i j k s0 he (Or.inr hs0))

/-- the spaces that `EV`, `EM` speak of exist -/
def Bounded (EV : Nat → Nat → Prop) (EM : Nat → Nat → Nat → Prop) (w : World K V) : Prop :=
  (∀ (i j : Nat), EV i j → j < w.sp.length) ∧ ∀ (i j k : Nat), EM i j k → j < w.sp.length ∧ k < w.sp.length

/-- only the spaces change -/
theorem world_sp {w : World K V} {sp : List (Space K)} (h : WorldOK EV EM w) (hb : Bounded EV EM w) (hg : HeapOK sp ∧ HLe w.sp sp) :
    WorldOK EV EM { w with sp := sp } :=
  world_step h hg.1 hg.2 (fun _ _ hi => Or.inl hi) (fun _ _ hi => Or.inl hi) hb.1 hb.2

/-- the spaces and one vector change -/
theorem world_vec {w : World K V} {sp : List (Space K)} {i : Nat} {v v' : Vec K V} (h : WorldOK EV EM w) (hb : Bounded EV EM w)
    (hg : HeapOK sp ∧ HLe w.sp sp) (hi : w.vs[i]? = some v) (hsp : v'.space = v.space)
    (hv : VecOK (EV i v.space) sp v → VecOK (EV i v.space) sp v') :
    WorldOK EV EM { w with sp := sp, vs := w.vs.set i v' } := by
  refine world_step h hg.1 hg.2 ?_ (fun _ _ hi => Or.inl hi) hb.1 hb.2
  intro j u hj
  rcases get_set hj with h1 | ⟨rfl, rfl⟩
  · exact Or.inl h1
  · right
    rw [hsp]
    exact hv ((h.vs _ v hi).mono h.hp hg.2)

theorem world_mat {w : World K V} {sp : List (Space K)} {i : Nat} {v v' : Mat K V} (h : WorldOK EV EM w) (hb : Bounded EV EM w)
    (hg : HeapOK sp ∧ HLe w.sp sp) (hi : w.ms[i]? = some v) (hsf : v'.sfrom = v.sfrom) (hst : v'.sto = v.sto)
    (hv : MatOK (EM i v.sfrom v.sto) sp v → MatOK (EM i v.sfrom v.sto) sp v') :
    WorldOK EV EM { w with sp := sp, ms := w.ms.set i v' } := by
  refine world_step h hg.1 hg.2 (fun _ _ hi => Or.inl hi) ?_ hb.1 hb.2
  intro j u hj
  rcases get_set hj with h1 | ⟨rfl, rfl⟩
  · exact Or.inl h1
  · right
    rw [hsf, hst]
    exact hv ((h.ms _ v hi).mono h.hp hg.2)

theorem world_self {w : World K V} (h : WorldOK EV EM w) : HeapOK w.sp ∧ HLe w.sp w.sp := ⟨h.hp, HLe.refl _⟩

theorem vWrite_ok {w : World K V} (h : WorldOK EV EM w) (hb : Bounded EV EM w) (i : Nat) (k : K) (c : Option V → V) :
    WorldOK EV EM (vWrite w i k c).1 ∧ HLe w.sp (vWrite w i k c).1.sp := by
  unfold vWrite
  cases hi : w.vs[i]? with
  | none => exact ⟨h, HLe.refl _⟩
  | some v =>
    dsimp only
    cases hk : keysAddAt w.sp v.space [k] with
    | error e =>
      exact ⟨world_vec h hb (world_self h) hi rfl (fun hv => hv.touch hv.wf), HLe.refl _⟩
    | ok sp =>
      obtain ⟨h1, h2, _⟩ := keysAddAt_good h.hp hk
      exact ⟨world_vec h hb ⟨h1, h2⟩ hi rfl (fun hv => hv.touch (Dict.WF_set hv.wf _ _)), h2⟩

theorem mWrite_ok {w : World K V} (h : WorldOK EV EM w) (hb : Bounded EV EM w) (i : Nat) (kf kt : K) (c : Option V → V) :
    WorldOK EV EM (mWrite w i kf kt c).1 ∧ HLe w.sp (mWrite w i kf kt c).1.sp := by
  unfold mWrite
  cases hi : w.ms[i]? with
  | none => exact ⟨h, HLe.refl _⟩
  | some v =>
    dsimp only
    cases hk : keysAddAt w.sp v.sfrom [kf] with
    | error e =>
      exact ⟨world_mat h hb (world_self h) hi rfl rfl (fun hv => hv.touch hv.wf), HLe.refl _⟩
    | ok sp =>
      obtain ⟨h1, h2, _⟩ := keysAddAt_good h.hp hk
      dsimp only
      cases hk2 : keysAddAt sp v.sto [kt] with
      | error e => exact ⟨world_mat h hb ⟨h1, h2⟩ hi rfl rfl (fun hv => hv.touch hv.wf), h2⟩
      | ok sp2 =>
        obtain ⟨h3, h4, _⟩ := keysAddAt_good h1 hk2
        dsimp only
        rw [List.set_set]
        exact ⟨world_mat h hb ⟨h3, h2.trans h4⟩ hi rfl rfl (fun hv => hv.touch (Dict.WF_set hv.wf _ _)), h2.trans h4⟩

theorem vArray_ok {w : World K V} (h : WorldOK EV EM w) (hb : Bounded EV EM w) (i : Nat) :
    WorldOK EV EM (vArray w i).1 ∧ HLe w.sp (vArray w i).1.sp := by
  unfold vArray
  cases hi : w.vs[i]? with
  | none => exact ⟨h, HLe.refl _⟩
  | some v =>
    dsimp only
    split
    · have hg := fillVec_good v.space v.data w.sp (List.replicate (lenAt w.sp v.space) 0) h.hp
      have hvok := h.vs i v hi
      obtain ⟨s, hs, _⟩ := hvok.sp
      cases hf : fillVec v.space v.data w.sp (List.replicate (lenAt w.sp v.space) 0) with
      | mk sp r =>
        rw [hf] at hg
        cases r with
        | error e => exact ⟨world_sp h hb hg, hg.2⟩
        | ok arr =>
          refine ⟨?_, hg.2⟩
          apply world_vec h hb hg hi
          · rfl
          intro hv
          refine ⟨hv.wf, ?_, ?_⟩
          · intro n m h1 h2
            have h1' : v.count = some n := h1
            have h2' : v.count = some m := h2
            rw [h1'] at h2'
            cases h2'
            exact le_refl n
          · by_cases hd : v.data = []
            · rw [hd] at hf
              unfold fillVec at hf
              rw [Prod.mk.injEq] at hf
              obtain ⟨rfl, hr⟩ := hf
              replace hr := Except.ok.inj hr
              subst hr
              refine ⟨s, hs, fun _ _ _ => ?_⟩
              have hlen : lenAt w.sp v.space = s.keys.length := by unfold lenAt; rw [hs]; rfl
              by_cases hE : EV i v.space
              · left
                have hfr := h.ev i v.space s hE hs
                refine ⟨hfr, ?_, ?_⟩
                · intro k hk; rw [hd] at hk; cases hk
                · obtain ⟨km, l, hm⟩ := maps_of_frozen hfr
                  have hso := (h.hp.ok _ s hs).so km l hm
                  refine ⟨l, hso, ?_⟩
                  dsimp only
                  rw [hlen, hd, sorted_zero_map (h.hp.ok _ s hs).nd hso]
                  rfl
              · right
                exact ⟨hE, hd, s.keys.length, le_refl _, by dsimp only; rw [hlen]⟩
            · obtain ⟨hs1, hs2⟩ := fillVec_spec h.hp hs hvok.wf hd
              by_cases hall : ∀ k ∈ Dict.keys v.data, k ∈ s.keys
              · obtain ⟨arr', he, ha⟩ := hs1 hall
                rw [hf, Prod.mk.injEq] at he
                obtain ⟨rfl, hr⟩ := he
                replace hr := Except.ok.inj hr
                subst hr
                refine ⟨s.freeze, by rw [freezeAt_get, if_pos rfl, hs]; rfl, fun _ _ _ => Or.inl ⟨freeze_frozen s, ?_, ?_⟩⟩
                · rw [freeze_keys]; exact hall
                · rw [freeze_keys]; exact ha
              · have hex : ∃ k ∈ Dict.keys v.data, k ∉ s.keys := by
                  by_contra hcon
                  apply hall
                  intro k hk
                  by_contra hk'
                  exact hcon ⟨k, hk, hk'⟩
                rw [hs2 hex, Prod.mk.injEq] at hf
                cases hf.2
    · exact ⟨h, HLe.refl _⟩

theorem mArray_ok {w : World K V} (h : WorldOK EV EM w) (hb : Bounded EV EM w) (i : Nat) :
    WorldOK EV EM (mArray w i).1 ∧ HLe w.sp (mArray w i).1.sp := by
  unfold mArray
  cases hi : w.ms[i]? with
  | none => exact ⟨h, HLe.refl _⟩
  | some v =>
    dsimp only
    split
    · have hg := fillMat_good v.sfrom v.sto v.data w.sp
        (List.replicate (lenAt w.sp v.sto) (List.replicate (lenAt w.sp v.sfrom) 0)) h.hp
      have hvok := h.ms i v hi
      obtain ⟨sf, st, hsf, hst, _⟩ := hvok.sp
      cases hf : fillMat v.sfrom v.sto v.data w.sp
          (List.replicate (lenAt w.sp v.sto) (List.replicate (lenAt w.sp v.sfrom) 0)) with
      | mk sp r =>
        rw [hf] at hg
        cases r with
        | error e => exact ⟨world_sp h hb hg, hg.2⟩
        | ok arr =>
          refine ⟨?_, hg.2⟩
          apply world_mat h hb hg hi
          · rfl
          · rfl
          intro hv
          refine ⟨hv.wf, ?_, ?_⟩
          · intro n m h1 h2
            have h1' : v.count = some n := h1
            have h2' : v.count = some m := h2
            rw [h1'] at h2'
            cases h2'
            exact le_refl n
          · by_cases hd : v.data = []
            · rw [hd] at hf
              unfold fillMat at hf
              rw [Prod.mk.injEq] at hf
              obtain ⟨rfl, hr⟩ := hf
              replace hr := Except.ok.inj hr
              subst hr
              refine ⟨sf, st, hsf, hst, fun _ _ _ => ?_⟩
              have hlf : lenAt w.sp v.sfrom = sf.keys.length := by unfold lenAt; rw [hsf]; rfl
              have hlt : lenAt w.sp v.sto = st.keys.length := by unfold lenAt; rw [hst]; rfl
              by_cases hE : EM i v.sfrom v.sto
              · left
                have hff := h.em i v.sfrom v.sto sf hE (Or.inl hsf)
                have hft := h.em i v.sfrom v.sto st hE (Or.inr hst)
                refine ⟨hff, hft, ?_, ?_⟩
                · intro k hk; rw [hd] at hk; cases hk
                · obtain ⟨kmf, lf, hmf⟩ := maps_of_frozen hff
                  obtain ⟨kmt, lt, hmt⟩ := maps_of_frozen hft
                  have hsof := (h.hp.ok _ sf hsf).so kmf lf hmf
                  have hsot := (h.hp.ok _ st hst).so kmt lt hmt
                  refine ⟨lf, lt, hsof, hsot, ?_⟩
                  dsimp only
                  rw [hlf, hlt, hd, sorted_zero_map (h.hp.ok _ sf hsf).nd hsof, ← hsot.length (h.hp.ok _ st hst).nd, ← List.map_const']
                  rfl
              · right
                exact ⟨hE, hd, st.keys.length, sf.keys.length, le_refl _, le_refl _, by dsimp only; rw [hlf, hlt]⟩
            · obtain ⟨hs1, hs2⟩ := fillMat_spec h.hp hsf hst hvok.wf hd
              by_cases hall : ∀ k ∈ Dict.keys v.data, k.1 ∈ sf.keys ∧ k.2 ∈ st.keys
              · obtain ⟨arr', he, ha⟩ := hs1 hall
                rw [hf, Prod.mk.injEq] at he
                obtain ⟨rfl, hr⟩ := he
                replace hr := Except.ok.inj hr
                subst hr
                refine ⟨sf.freeze, st.freeze, by rw [freeze2_get, if_pos (Or.inl rfl), hsf]; rfl,
                  by rw [freeze2_get, if_pos (Or.inr rfl), hst]; rfl,
                  fun _ _ _ => Or.inl ⟨freeze_frozen sf, freeze_frozen st, ?_, ?_⟩⟩
                · rw [freeze_keys, freeze_keys]; exact hall
                · rw [freeze_keys, freeze_keys]; exact ha
              · have hex : ∃ k ∈ Dict.keys v.data, ¬ (k.1 ∈ sf.keys ∧ k.2 ∈ st.keys) := by
                  by_contra hcon
                  apply hall
                  intro k hk
                  by_contra hk'
                  exact hcon ⟨k, hk, hk'⟩
                have := hs2 hex
                rw [hf] at this
                cases this
    · exact ⟨h, HLe.refl _⟩

theorem WF_del {X Y : Type} [DecidableEq X] {d d' : Dict X Y} {k : X} (hd : Dict.WF d) (h : Dict.del d k = .ok d') : Dict.WF d' := by
  unfold Dict.del at h
  split at h
  · cases h; exact Dict.WF_erase hd k
  · cases h

/-- The invariant holds after every call; spaces only grow. -/
theorem step_ok [Add V] [Mul V] {w : World K V} (h : WorldOK EV EM w) (hb : Bounded EV EM w) (op : Op K V) :
    WorldOK EV EM (step op w).1 ∧ HLe w.sp (step op w).1.sp := by
  cases op with
  | newSpace ks fr =>
    have hg := append_good h.hp (init_ok ks fr false none) (init_inv _ _ _ _)
    exact ⟨world_sp h hb hg, hg.2⟩
  | copySpace i =>
    dsimp only [step]
    cases hi : w.sp[i]? with
    | none => exact ⟨h, HLe.refl _⟩
    | some s =>
      have hg := append_good h.hp (init_ok s.keys false false none) (init_inv _ _ _ _)
      exact ⟨world_sp h hb hg, hg.2⟩
  | addKeys i ks =>
    dsimp only [step]
    cases hk : keysAddAt w.sp i ks with
    | error e => exact ⟨h, HLe.refl _⟩
    | ok sp =>
      obtain ⟨h1, h2, _⟩ := keysAddAt_good h.hp hk
      exact ⟨world_sp h hb ⟨h1, h2⟩, h2⟩
  | freeze i =>
    have hg := freezeAt_good h.hp i
    exact ⟨world_sp h hb hg, hg.2⟩
  | keyMap i k =>
    dsimp only [step]
    have hg := freezeAt_good h.hp i
    have hf := keyMapAt_fst w.sp i k
    cases hk : keyMapAt w.sp i k with
    | mk sp r =>
      rw [hk] at hf
      replace hf : sp = freezeAt w.sp i := hf
      subst hf
      cases r with
      | error e => exact ⟨world_sp h hb hg, hg.2⟩
      | ok n => exact ⟨world_sp h hb hg, hg.2⟩
  | idxMap i n =>
    dsimp only [step]
    have hg := freezeAt_good h.hp i
    cases hk : (freezeAt w.sp i)[i]? with
    | none => exact ⟨h, HLe.refl _⟩
    | some s => exact ⟨world_sp h hb hg, hg.2⟩
  | keysIter i =>
    dsimp only [step]
    have hg := freezeAt_good h.hp i
    cases hk : (freezeAt w.sp i)[i]? with
    | none => exact ⟨h, HLe.refl _⟩
    | some s => exact ⟨world_sp h hb hg, hg.2⟩
  | inverse i =>
    dsimp only [step]
    have hg := inverse_good (V := V) h.hp i
    refine ⟨?_, hg.2⟩
    have hvs : (inverse w i).1.vs = w.vs ∧ (inverse w i).1.ms = w.ms := by
      unfold inverse
      split
      · exact ⟨rfl, rfl⟩
      · split
        · exact ⟨rfl, rfl⟩
        · exact ⟨rfl, rfl⟩
    exact world_step h hg.1 hg.2 (fun _ _ hi => Or.inl (by rw [← hvs.1]; exact hi)) (fun _ _ hi => Or.inl (by rw [← hvs.2]; exact hi)) hb.1 hb.2
  | newVec sid pre =>
    dsimp only [step]
    split
    · rename_i hlt
      refine ⟨?_, HLe.refl _⟩
      refine world_step h h.hp (HLe.refl _) ?_ (fun _ _ hi => Or.inl hi) hb.1 hb.2
      intro j u hj
      rcases get_append hj with h1 | ⟨rfl, rfl⟩
      · exact Or.inl h1
      · right
        refine ⟨Dict.WF_ofList pre, ?_, w.sp[sid], List.getElem?_eq_getElem hlt, ?_⟩
        · intro n m h1 h2
          have h1' : 1 = n := Option.some.inj h1
          have h2' : 0 = m := Option.some.inj h2
          omega
        · intro n h1 h2
          have h1' : 1 = n := Option.some.inj h1
          have h2' : 0 = n := Option.some.inj h2
          omega
    · exact ⟨h, HLe.refl _⟩
  | vSet v k x => exact vWrite_ok h hb v k _
  | vAddBy v k x => exact vWrite_ok h hb v k _
  | vDel i k =>
    dsimp only [step]
    cases hi : w.vs[i]? with
    | none => exact ⟨h, HLe.refl _⟩
    | some v =>
      dsimp only
      cases hk : Dict.del v.data k with
      | error e => exact ⟨world_vec h hb (world_self h) hi rfl (fun hv => hv.touch hv.wf), HLe.refl _⟩
      | ok d => exact ⟨world_vec h hb (world_self h) hi rfl (fun hv => hv.touch (WF_del hv.wf hk)), HLe.refl _⟩
  | vPrevent i =>
    dsimp only [step]
    cases hi : w.vs[i]? with
    | none => exact ⟨h, HLe.refl _⟩
    | some v => exact ⟨world_vec h hb (world_self h) hi rfl (fun hv => hv.nan), HLe.refl _⟩
  | vArray i => exact vArray_ok h hb i
  | newMat sf st pre =>
    dsimp only [step]
    split
    · rename_i hlt
      refine ⟨?_, HLe.refl _⟩
      refine world_step h h.hp (HLe.refl _) (fun _ _ hi => Or.inl hi) ?_ hb.1 hb.2
      intro j u hj
      rcases get_append hj with h1 | ⟨rfl, rfl⟩
      · exact Or.inl h1
      · right
        refine ⟨Dict.WF_ofList pre, ?_, w.sp[sf]'hlt.1, w.sp[st]'hlt.2, List.getElem?_eq_getElem hlt.1, List.getElem?_eq_getElem hlt.2, ?_⟩
        · intro n m h1 h2
          have h1' : 1 = n := Option.some.inj h1
          have h2' : 0 = m := Option.some.inj h2
          omega
        · intro n h1 h2
          have h1' : 1 = n := Option.some.inj h1
          have h2' : 0 = n := Option.some.inj h2
          omega
    · exact ⟨h, HLe.refl _⟩
  | mSet v kf kt x => exact mWrite_ok h hb v kf kt _
  | mMulBy v kf kt x => exact mWrite_ok h hb v kf kt _
  | mSetNullable i kt kf x =>
    dsimp only [step]
    cases hi : w.ms[i]? with
    | none => exact ⟨h, HLe.refl _⟩
    | some v =>
      dsimp only
      split
      · exact ⟨world_mat h hb (world_self h) hi rfl rfl (fun hv => hv.touch hv.wf), HLe.refl _⟩
      · exact ⟨world_mat h hb (world_self h) hi rfl rfl (fun hv => hv.touch (Dict.WF_set hv.wf _ _)), HLe.refl _⟩
  | mDel i kf kt =>
    dsimp only [step]
    cases hi : w.ms[i]? with
    | none => exact ⟨h, HLe.refl _⟩
    | some v =>
      dsimp only
      cases hk : Dict.del v.data (kf, kt) with
      | error e => exact ⟨world_mat h hb (world_self h) hi rfl rfl (fun hv => hv.touch hv.wf), HLe.refl _⟩
      | ok d => exact ⟨world_mat h hb (world_self h) hi rfl rfl (fun hv => hv.touch (WF_del hv.wf hk)), HLe.refl _⟩
  | mFillNested i nested =>
    dsimp only [step]
    cases hi : w.ms[i]? with
    | none => exact ⟨h, HLe.refl _⟩
    | some v =>
      dsimp only
      have hg := nestOuter_good v.sfrom v.sto nested w.sp v.data h.hp (h.ms i v hi).wf
      cases hn : nestOuter v.sfrom v.sto nested w.sp v.data with
      | mk sp r =>
        obtain ⟨d, r⟩ := r
        rw [hn] at hg
        exact ⟨world_mat h hb ⟨hg.1, hg.2.1⟩ hi rfl rfl (fun hv => hv.touch hg.2.2), hg.2.1⟩
  | mPrevent i =>
    dsimp only [step]
    cases hi : w.ms[i]? with
    | none => exact ⟨h, HLe.refl _⟩
    | some v => exact ⟨world_mat h hb (world_self h) hi rfl rfl (fun hv => hv.nan), HLe.refl _⟩
  | mArray i => exact mArray_ok h hb i
  | mIdxDict i =>
    dsimp only [step]
    cases hi : w.ms[i]? with
    | none => exact ⟨h, HLe.refl _⟩
    | some v =>
      dsimp only
      cases hx : v.midx with
      | some d => exact ⟨h, HLe.refl _⟩
      | none =>
        dsimp only
        have hg := fillIdx_good v.sfrom v.sto v.data w.sp [] h.hp
        cases hn : fillIdx v.sfrom v.sto v.data w.sp [] with
        | mk sp r =>
          rw [hn] at hg
          cases r with
          | error e => exact ⟨world_sp h hb hg, hg.2⟩
          | ok d => exact ⟨world_mat h hb hg hi rfl rfl (fun hv => ⟨hv.wf, hv.le, hv.sp⟩), hg.2⟩

theorem Bounded.mono {w w' : World K V} (hb : Bounded EV EM w) (hle : HLe w.sp w'.sp) : Bounded EV EM w' :=
  ⟨fun i j he => hle.length j (hb.1 i j he), fun i j k he => ⟨hle.length j (hb.2 i j k he).1, hle.length k (hb.2 i j k he).2⟩⟩

theorem run_ok [Add V] [Mul V] (ops : List (Op K V)) : ∀ {w : World K V}, WorldOK EV EM w → Bounded EV EM w →
    WorldOK EV EM (run ops w) ∧ HLe w.sp (run ops w).sp := by
  induction ops with
  | nil => intro w h _; exact ⟨h, HLe.refl _⟩
  | cons op ops ih =>
    intro w h hb
    obtain ⟨h1, h2⟩ := step_ok h hb op
    obtain ⟨h3, h4⟩ := ih h1 (hb.mono h2)
    exact ⟨h3, h2.trans h4⟩

/-- no vector or matrix is singled out -/
theorem start_ok : WorldOK (fun _ _ => False) (fun _ _ _ => False) ({} : World K V) :=
  ⟨⟨by simp, by simp⟩, by simp, by simp, by simp, by simp⟩

theorem start_bounded (w : World K V) : Bounded (fun _ _ => False) (fun _ _ _ => False) w :=
  ⟨fun _ _ h => h.elim, fun _ _ _ h => h.elim⟩

end KeyMat
