import Verif.KeyMat.History
import Mathlib.Algebra.BigOperators.Ring.Finset
import Mathlib.Algebra.Ring.Int.Defs
import Mathlib.Tactic.Abel

/-!
# C25, C26: key spaces and the arrays of keyed vectors and matrices
-/

set_option linter.unusedSectionVars false

namespace KeyMat
open Py

variable {K V : Type} [LinearOrder K]

/-- The world after the calls `ops`, from nothing. -/
def after [Zero V] [Add V] [Mul V] (ops : List (Op K V)) : World K V := run ops {}

theorem after_ok [Zero V] [Add V] [Mul V] (ops : List (Op K V)) :
    WorldOK (fun _ _ => False) (fun _ _ _ => False) (after ops) :=
  (run_ok ops start_ok (start_bounded _)).1

theorem run_append [Zero V] [Add V] [Mul V] (ops more : List (Op K V)) (w : World K V) :
    run (ops ++ more) w = run more (run ops w) := by
  unfold run; rw [List.foldl_append]

/-! ### C25 -/

/-- **C25.** At any time, looking up keys and indices goes through the list of the keys in increasing order, both ways; an
unknown key is refused. -/
theorem C25_index [Zero V] [Add V] [Mul V] (ops : List (Op K V)) (i : Nat) (s : Space K) (hs : (after ops).sp[i]? = some s) :
    ∃ l, Sorted s.keys l ∧
      (∀ k j, (step (.keyMap i k) (after ops)).2 = .ok (.nat j) ↔ l[j]? = some k) ∧
      (∀ k, k ∉ s.keys → (step (.keyMap i k) (after ops)).2 = .error .keyError) ∧
      (∀ (j : Nat) k, (step (.idxMap i j) (after ops)).2 = .ok (.key k) ↔ l[j]? = some k) ∧
      (∀ j : Nat, l.length ≤ j → (step (.idxMap i j) (after ops)).2 = .error .indexError) := by
  have hok := after_ok ops
  have hfok := freeze_ok (hok.hp.ok i s hs)
  obtain ⟨km, l, hm⟩ := freeze_maps s
  have hso := hfok.so km l hm
  rw [freeze_keys] at hso
  have hfi : (freezeAt (after ops).sp i)[i]? = some s.freeze := by rw [freezeAt_get, if_pos rfl, hs]; rfl
  have hk : ∀ k, (step (.keyMap i k) (after ops)).2 = (Dict.get km k).map .nat := by
    intro k
    dsimp only [step]
    rw [← keyMapAt_freeze, keyMapAt_frozen hfi hm]
    cases Dict.get km k with
    | error e => rfl
    | ok n => rfl
  have hx : ∀ j : Nat, (step (.idxMap i j) (after ops)).2 = match l[j]? with | some k => .ok (.key k) | none => .error .indexError := by
    intro j
    dsimp only [step]
    rw [hfi]
    dsimp only
    unfold Space.idxMap
    rw [hm]
    dsimp only
    rw [if_pos (Int.natCast_nonneg j), if_pos (Int.natCast_nonneg j), Int.toNat_natCast]
    cases l[j]? with
    | none => rfl
    | some k => rfl
  refine ⟨l, hso, ?_, ?_, ?_, ?_⟩
  · intro k j
    rw [hk, ← hfok.im km l hm k j]
    cases hg : Dict.get? km k with
    | none =>
      rw [Dget_none hg]
      constructor
      · intro h; cases h
      · intro h; cases h
    | some n =>
      rw [Dget_of_get? hg]
      constructor
      · intro h
        have : n = j := by
          have := Except.ok.inj h
          exact Out.nat.inj this
        rw [this]
      · intro h
        rw [Option.some.inj h]
        rfl
  · intro k hn
    rw [hk, not_mem_index hfok hm (by rw [freeze_keys]; exact hn)]
    rfl
  · intro j k
    rw [hx]
    cases hl : l[j]? with
    | none =>
      constructor
      · intro h; cases h
      · intro h; cases h
    | some k' =>
      constructor
      · intro h
        have := Out.key.inj (Except.ok.inj h)
        rw [this]
      · intro h
        rw [Option.some.inj h]
  · intro j hj
    rw [hx, List.getElem?_eq_none hj]

/-- **C25.** A frozen space refuses unknown keys, accepts known ones, and is not changed by either. -/
theorem C25_frozen [Zero V] [Add V] [Mul V] (w : World K V) (i : Nat) (s : Space K) (hs : w.sp[i]? = some s)
    (hf : s.frozen = true) (args : List K) :
    (step (.addKeys i args) w).1 = w ∧
      ((∀ k ∈ args, k ∈ s.keys) → (step (.addKeys i args) w).2 = .ok .unit) ∧
      ((∃ k ∈ args, k ∉ s.keys) → (step (.addKeys i args) w).2 = .error .runtime) := by
  have hset : w.sp.set i s = w.sp := by
    apply List.ext_getElem?
    intro j
    rw [List.getElem?_set]
    by_cases hij : i = j
    · subst hij; rw [if_pos rfl, if_pos (lt_of_getElem? hs), hs]
    · rw [if_neg hij]
  dsimp only [step]
  unfold keysAddAt
  rw [hs]
  dsimp only
  unfold Space.keysAdd
  rw [if_pos hf]
  by_cases ha : ∀ k ∈ args, k ∈ s.keys
  · rw [if_pos (by rw [List.all_eq_true]; intro k hk; simpa using ha k hk)]
    refine ⟨?_, fun _ => rfl, ?_⟩
    · show { w with sp := w.sp.set i s } = w
      rw [hset]
    · rintro ⟨k, hk, hn⟩; exact absurd (ha k hk) hn
  · rw [if_neg (by rw [List.all_eq_true]; intro hcon; apply ha; intro k hk; simpa using hcon k hk)]
    exact ⟨rfl, fun h => absurd h ha, fun _ => rfl⟩

/-- **C25.** Before the freeze, `keys_add` adds exactly its arguments. -/
theorem C25_unfrozen [Zero V] [Add V] [Mul V] (w : World K V) (i : Nat) (s : Space K) (hs : w.sp[i]? = some s)
    (hf : s.frozen = false) (args : List K) :
    (step (.addKeys i args) w).2 = .ok .unit ∧
      ∃ s', (step (.addKeys i args) w).1.sp[i]? = some s' ∧ s'.frozen = false ∧ ∀ k, k ∈ s'.keys ↔ k ∈ s.keys ∨ k ∈ args := by
  dsimp only [step]
  unfold keysAddAt
  rw [hs]
  dsimp only
  unfold Space.keysAdd
  rw [if_neg (by rw [hf]; exact Bool.false_ne_true)]
  refine ⟨rfl, { s with keys := toSet s.keys args }, ?_, hf, fun k => mem_toSet args s.keys k⟩
  show (w.sp.set i _)[i]? = _
  rw [List.getElem?_set, if_pos rfl, if_pos (lt_of_getElem? hs)]

/-- **C25.** `freeze` freezes, and keeps the keys. -/
theorem C25_freeze [Zero V] [Add V] [Mul V] (w : World K V) (i : Nat) (s : Space K) (hs : w.sp[i]? = some s) :
    ∃ s', (step (.freeze i) w).1.sp[i]? = some s' ∧ s'.frozen = true ∧ s'.keys = s.keys :=
  ⟨s.freeze, by dsimp only [step]; rw [freezeAt_get, if_pos rfl, hs]; rfl, freeze_frozen s, freeze_keys s⟩

/-- **C25.** Once frozen, whatever is called afterwards, the space keeps its keys, its two maps and its inverse. -/
theorem C25_forever [Zero V] [Add V] [Mul V] (ops more : List (Op K V)) (i : Nat) (s : Space K)
    (hs : (after ops).sp[i]? = some s) (hf : s.frozen = true) :
    ∃ s', (after (ops ++ more)).sp[i]? = some s' ∧ s'.keys = s.keys ∧ s'.maps = s.maps ∧
      ∀ j, s.inv = some j → s'.inv = some j := by
  have h := (run_ok more (after_ok ops) (start_bounded _)).2
  obtain ⟨s', hs', hl⟩ := h i s hs
  refine ⟨s', ?_, (hl.fr hf).1, (hl.fr hf).2, hl.iv⟩
  unfold after
  rw [run_append]
  exact hs'

/-- **C25.** The inverse space has the same keys and the opposite variance; whatever is called in between, the inverse of the
inverse is the space itself, and the inverse stays the same. -/
theorem C25_inverse [Zero V] [Add V] [Mul V] (ops : List (Op K V)) (i : Nat) (s : Space K) (hs : (after ops).sp[i]? = some s) :
    ∃ j, (step (.inverse i) (after ops)).2 = .ok (.ref j) ∧ ∀ more : List (Op K V),
      (step (.inverse j) (after (ops ++ .inverse i :: more))).2 = .ok (.ref i) ∧
      (step (.inverse i) (after (ops ++ .inverse i :: more))).2 = .ok (.ref j) ∧
      ∃ a b, (after (ops ++ .inverse i :: more)).sp[i]? = some a ∧ (after (ops ++ .inverse i :: more)).sp[j]? = some b ∧
        a.keys = s.keys ∧ b.keys = s.keys ∧ b.contra = !a.contra ∧ a.contra = s.contra ∧ a.frozen = true ∧ b.frozen = true := by
  have hok := after_ok ops
  have hinv : ∃ j s1, (inverse (after ops) i).2 = .ok (.ref j) ∧ (inverse (after ops) i).1.sp[i]? = some s1 ∧ s1.inv = some j ∧
      s1.keys = s.keys ∧ s1.contra = s.contra := by
    unfold inverse
    rw [hs]
    dsimp only
    cases hv : s.inv with
    | some j => exact ⟨j, s, rfl, hs, hv, rfl, rfl⟩
    | none =>
      dsimp only
      refine ⟨(after ops).sp.length, { s.freeze with inv := some (after ops).sp.length }, rfl, ?_, rfl, freeze_keys s, freeze_contra s⟩
      have hlt := lt_of_getElem? hs
      rw [List.getElem?_append_left (by simpa using hlt), List.getElem?_set, if_pos rfl, if_pos hlt]
  obtain ⟨j, s1, h1, h2, h3, h4, h5⟩ := hinv
  refine ⟨j, h1, ?_⟩
  intro more
  have hw : after (ops ++ .inverse i :: more) = run more (inverse (after ops) i).1 := by
    unfold after
    rw [run_append]
    rfl
  have hok1 := (step_ok hok (start_bounded _) (.inverse i)).1
  obtain ⟨hok2, hle⟩ := run_ok more hok1 (start_bounded _)
  rw [hw]
  set w2 := run more (inverse (after ops) i).1 with hw2
  have hle' : HLe (inverse (after ops) i).1.sp w2.sp := hle
  have hok2' : WorldOK (fun _ _ => False) (fun _ _ _ => False) w2 := hok2
  obtain ⟨a, ha, hla⟩ := hle' i s1 h2
  have hai := hla.iv j h3
  obtain ⟨haf, b, hb, hbi, hbf, hbk, hbc⟩ := hok2'.hp.lk i a j ha hai
  have hs1f : s1.frozen = true := (hok1.hp.lk i s1 j h2 h3).1
  have hak := (hla.fr hs1f).1
  refine ⟨?_, ?_, a, b, ha, hb, hak.trans h4, hbk.trans (hak.trans h4), hbc, hla.ct.trans h5, haf, hbf⟩
  · dsimp only [step]
    unfold inverse
    rw [hb]
    dsimp only
    rw [hbi]
  · dsimp only [step]
    unfold inverse
    rw [ha]
    dsimp only
    rw [hai]

/-! ### C26 -/

theorem differs_false {a b : Option Nat} (h : differs a b = false) : ∃ n, a = some n ∧ b = some n := by
  unfold differs at h
  split at h
  · rename_i x y
    have : x = y := by simpa using h
    subst this
    exact ⟨x, rfl, rfl⟩
  · cases h

theorem exists_bad {X : Type} {l : List X} {p : X → Prop} (h : ¬ ∀ k ∈ l, p k) : ∃ k ∈ l, ¬ p k := by
  by_contra hcon
  apply h
  intro k hk
  by_contra hk'
  exact hcon ⟨k, hk, hk'⟩

/-- reading the array of a vector -/
theorem vArray_read [Zero V] {EV EM} {w : World K V} (h : WorldOK EV EM w) {i : Nat} {v : Vec K V} {s : Space K}
    (hi : w.vs[i]? = some v) (hs : w.sp[v.space]? = some s) (hne : v.data ≠ [] ∨ EV i v.space) :
    ((∀ k ∈ Dict.keys v.data, k ∈ s.keys) → ∃ arr, (vArray w i).2 = .ok (.vec arr) ∧ IsVecArray s.keys v.data arr) ∧
      ((∃ k ∈ Dict.keys v.data, k ∉ s.keys) → (vArray w i).2 = .error .keyError) := by
  have hv := h.vs i v hi
  unfold vArray
  rw [hi]
  dsimp only
  by_cases hd : differs v.mcount v.count = true
  · rw [if_pos hd]
    by_cases he : v.data = []
    · constructor
      · intro _
        have hE := hne.resolve_left (fun h => h he)
        have hfr := h.ev i v.space s hE hs
        obtain ⟨km, l, hm⟩ := maps_of_frozen hfr
        have hso := (h.hp.ok _ s hs).so km l hm
        have hlen : lenAt w.sp v.space = s.keys.length := by unfold lenAt; rw [hs]; rfl
        have hf : fillVec v.space v.data w.sp (List.replicate (lenAt w.sp v.space) (0 : V)) =
            (w.sp, .ok (List.replicate (lenAt w.sp v.space) (0 : V))) := by rw [he]; rfl
        rw [hf]
        refine ⟨_, rfl, l, hso, ?_⟩
        rw [hlen, he, sorted_zero_map (h.hp.ok _ s hs).nd hso]
        rfl
      · rintro ⟨k, hk, _⟩; rw [he] at hk; cases hk
    · obtain ⟨h1, h2⟩ := fillVec_spec h.hp hs hv.wf he
      constructor
      · intro hall
        obtain ⟨arr, ha, hr⟩ := h1 hall
        rw [ha]
        exact ⟨arr, rfl, hr⟩
      · intro hex
        rw [h2 hex]
  · rw [if_neg hd]
    obtain ⟨n, hn1, hn2⟩ := differs_false (by simpa using hd)
    obtain ⟨s', hs', hm⟩ := hv.sp
    rw [hs] at hs'
    cases hs'
    rcases hm n hn2 hn1 with ⟨_, hk, ha⟩ | ⟨hE, hd0, _⟩
    · refine ⟨fun _ => ⟨_, rfl, ha⟩, ?_⟩
      rintro ⟨k, hk1, hk2⟩
      exact absurd (hk k hk1) hk2
    · rcases hne with h1 | h1
      · exact absurd hd0 h1
      · exact absurd h1 hE

/-- reading the array of a matrix -/
theorem mArray_read [Zero V] {EV EM} {w : World K V} (h : WorldOK EV EM w) {i : Nat} {v : Mat K V} {sf st : Space K}
    (hi : w.ms[i]? = some v) (hsf : w.sp[v.sfrom]? = some sf) (hst : w.sp[v.sto]? = some st)
    (hne : v.data ≠ [] ∨ EM i v.sfrom v.sto) :
    ((∀ k ∈ Dict.keys v.data, k.1 ∈ sf.keys ∧ k.2 ∈ st.keys) →
        ∃ arr, (mArray w i).2 = .ok (.mat arr) ∧ IsMatArray sf.keys st.keys v.data arr) ∧
      ((∃ k ∈ Dict.keys v.data, ¬ (k.1 ∈ sf.keys ∧ k.2 ∈ st.keys)) → (mArray w i).2 = .error .keyError) := by
  have hv := h.ms i v hi
  unfold mArray
  rw [hi]
  dsimp only
  by_cases hd : differs v.mcount v.count = true
  · rw [if_pos hd]
    by_cases he : v.data = []
    · constructor
      · intro _
        have hE := hne.resolve_left (fun h => h he)
        have hff := h.em i v.sfrom v.sto sf hE (Or.inl hsf)
        have hft := h.em i v.sfrom v.sto st hE (Or.inr hst)
        obtain ⟨kmf, lf, hmf⟩ := maps_of_frozen hff
        obtain ⟨kmt, lt, hmt⟩ := maps_of_frozen hft
        have hsof := (h.hp.ok _ sf hsf).so kmf lf hmf
        have hsot := (h.hp.ok _ st hst).so kmt lt hmt
        have hlf : lenAt w.sp v.sfrom = sf.keys.length := by unfold lenAt; rw [hsf]; rfl
        have hlt : lenAt w.sp v.sto = st.keys.length := by unfold lenAt; rw [hst]; rfl
        have hf : ∀ A : List (List V), fillMat v.sfrom v.sto v.data w.sp A = (w.sp, .ok A) := by
          intro A; rw [he]; rfl
        rw [hf]
        refine ⟨_, rfl, lf, lt, hsof, hsot, ?_⟩
        rw [hlf, hlt, he, sorted_zero_map (h.hp.ok _ sf hsf).nd hsof, ← hsot.length (h.hp.ok _ st hst).nd, ← List.map_const']
        rfl
      · rintro ⟨k, hk, _⟩; rw [he] at hk; cases hk
    · obtain ⟨h1, h2⟩ := fillMat_spec h.hp hsf hst hv.wf he
      constructor
      · intro hall
        obtain ⟨arr, ha, hr⟩ := h1 hall
        rw [ha]
        exact ⟨arr, rfl, hr⟩
      · intro hex
        have := h2 hex
        cases hfm : fillMat v.sfrom v.sto v.data w.sp (List.replicate (lenAt w.sp v.sto) (List.replicate (lenAt w.sp v.sfrom) 0)) with
        | mk sp r =>
          rw [hfm] at this
          replace this : r = .error .keyError := this
          subst this
          rfl
  · rw [if_neg hd]
    obtain ⟨n, hn1, hn2⟩ := differs_false (by simpa using hd)
    obtain ⟨sf', st', hsf', hst', hm⟩ := hv.sp
    rw [hsf] at hsf'
    rw [hst] at hst'
    cases hsf'
    cases hst'
    rcases hm n hn2 hn1 with ⟨_, _, hk, ha⟩ | ⟨hE, hd0, _⟩
    · refine ⟨fun _ => ⟨_, rfl, ha⟩, ?_⟩
      rintro ⟨k, hk1, hk2⟩
      exact absurd (hk k hk1) hk2
    · rcases hne with h1 | h1
      · exact absurd hd0 h1
      · exact absurd h1 hE

/-- **C26 (part).** After any calls on any objects, the array of a vector with entries is the array of its present entries (and a
KeyError if the vector was built with a key that its space lacks).  (Missing: vectors without entries that were read before
their space grew, where it is false: `C26_stale`.) -/
theorem C26_vector_partial [Zero V] [Add V] [Mul V] (ops : List (Op K V)) (i : Nat) (v : Vec K V) (hi : (after ops).vs[i]? = some v)
    (hne : v.data ≠ []) :
    ∃ s, (after ops).sp[v.space]? = some s ∧
      ((∀ k ∈ Dict.keys v.data, k ∈ s.keys) →
        ∃ arr, (step (.vArray i) (after ops)).2 = .ok (.vec arr) ∧ IsVecArray s.keys v.data arr) ∧
      ((∃ k ∈ Dict.keys v.data, k ∉ s.keys) → (step (.vArray i) (after ops)).2 = .error .keyError) := by
  have hok := after_ok ops
  obtain ⟨s, hs, _⟩ := (hok.vs i v hi).sp
  exact ⟨s, hs, vArray_read hok hi hs (Or.inl hne)⟩

/-- **C26 (part).** The same for matrices. -/
theorem C26_matrix_partial [Zero V] [Add V] [Mul V] (ops : List (Op K V)) (i : Nat) (m : Mat K V) (hi : (after ops).ms[i]? = some m)
    (hne : m.data ≠ []) :
    ∃ sf st, (after ops).sp[m.sfrom]? = some sf ∧ (after ops).sp[m.sto]? = some st ∧
      ((∀ k ∈ Dict.keys m.data, k.1 ∈ sf.keys ∧ k.2 ∈ st.keys) →
        ∃ arr, (step (.mArray i) (after ops)).2 = .ok (.mat arr) ∧ IsMatArray sf.keys st.keys m.data arr) ∧
      ((∃ k ∈ Dict.keys m.data, ¬ (k.1 ∈ sf.keys ∧ k.2 ∈ st.keys)) → (step (.mArray i) (after ops)).2 = .error .keyError) := by
  have hok := after_ok ops
  obtain ⟨sf, st, hsf, hst, _⟩ := (hok.ms i m hi).sp
  exact ⟨sf, st, hsf, hst, mArray_read hok hi hsf hst (Or.inl hne)⟩

/-- **C26.** A vector made after its space was frozen always shows the array of its present entries, entries or not. -/
theorem C26_vector_frozen [Zero V] [Add V] [Mul V] (ops more : List (Op K V)) (i : Nat) (v : Vec K V) (s : Space K)
    (hs : (after ops).sp[v.space]? = some s) (hf : s.frozen = true) (hnew : (after ops).vs.length ≤ i)
    (hi : (after (ops ++ more)).vs[i]? = some v) :
    ((∀ k ∈ Dict.keys v.data, k ∈ s.keys) →
        ∃ arr, (step (.vArray i) (after (ops ++ more))).2 = .ok (.vec arr) ∧ IsVecArray s.keys v.data arr) ∧
      ((∃ k ∈ Dict.keys v.data, k ∉ s.keys) → (step (.vArray i) (after (ops ++ more))).2 = .error .keyError) := by
  have h0 := after_ok ops
  have hw : after (ops ++ more) = run more (after ops) := by unfold after; rw [run_append]
  let EV : Nat → Nat → Prop := fun a b => (after ops).vs.length ≤ a ∧ b = v.space
  have hstart : WorldOK EV (fun _ _ _ => False) (after ops) := by
    refine ⟨h0.hp, ?_, h0.ms, ?_, fun _ _ _ _ h => h.elim⟩
    · intro j u hj
      have hlt := lt_of_getElem? hj
      have hu := h0.vs j u hj
      have hE : ¬ EV j u.space := fun h => absurd h.1 (by omega)
      refine ⟨hu.wf, hu.le, ?_⟩
      obtain ⟨t, ht, hm⟩ := hu.sp
      refine ⟨t, ht, fun n h1 h2 => ?_⟩
      rcases hm n h1 h2 with h3 | ⟨_, h3⟩
      · exact Or.inl h3
      · exact Or.inr ⟨hE, h3⟩
    · rintro a b t ⟨_, rfl⟩ ht
      rw [hs] at ht
      cases ht
      exact hf
  have hbd : Bounded EV (fun _ _ _ => False) (after ops) :=
    ⟨by rintro a b ⟨_, rfl⟩; exact lt_of_getElem? hs, fun _ _ _ h => h.elim⟩
  obtain ⟨hok, hle⟩ := run_ok more hstart hbd
  rw [hw] at hi ⊢
  obtain ⟨s', hs', hl⟩ := hle _ s hs
  have := vArray_read hok hi hs' (Or.inr ⟨by
    by_contra hcon
    exact absurd hnew hcon, rfl⟩)
  rw [(hl.fr hf).1] at this
  exact this

/-- **C26.** A matrix made after its spaces were frozen always shows the array of its present entries. -/
theorem C26_matrix_frozen [Zero V] [Add V] [Mul V] (ops more : List (Op K V)) (i : Nat) (m : Mat K V) (sf st : Space K)
    (hsf : (after ops).sp[m.sfrom]? = some sf) (hst : (after ops).sp[m.sto]? = some st) (hff : sf.frozen = true)
    (hft : st.frozen = true) (hnew : (after ops).ms.length ≤ i) (hi : (after (ops ++ more)).ms[i]? = some m) :
    ((∀ k ∈ Dict.keys m.data, k.1 ∈ sf.keys ∧ k.2 ∈ st.keys) →
        ∃ arr, (step (.mArray i) (after (ops ++ more))).2 = .ok (.mat arr) ∧ IsMatArray sf.keys st.keys m.data arr) ∧
      ((∃ k ∈ Dict.keys m.data, ¬ (k.1 ∈ sf.keys ∧ k.2 ∈ st.keys)) →
        (step (.mArray i) (after (ops ++ more))).2 = .error .keyError) := by
  have h0 := after_ok ops
  have hw : after (ops ++ more) = run more (after ops) := by unfold after; rw [run_append]
  let EM : Nat → Nat → Nat → Prop := fun a b c => (after ops).ms.length ≤ a ∧ b = m.sfrom ∧ c = m.sto
  have hstart : WorldOK (fun _ _ => False) EM (after ops) := by
    refine ⟨h0.hp, h0.vs, ?_, fun _ _ _ h => h.elim, ?_⟩
    · intro j u hj
      have hlt := lt_of_getElem? hj
      have hu := h0.ms j u hj
      have hE : ¬ EM j u.sfrom u.sto := fun h => absurd h.1 (by omega)
      refine ⟨hu.wf, hu.le, ?_⟩
      obtain ⟨tf, tt, htf, htt, hm⟩ := hu.sp
      refine ⟨tf, tt, htf, htt, fun n h1 h2 => ?_⟩
      rcases hm n h1 h2 with h3 | ⟨_, h3⟩
      · exact Or.inl h3
      · exact Or.inr ⟨hE, h3⟩
    · rintro a b c t ⟨_, rfl, rfl⟩ ht
      rcases ht with ht | ht
      · rw [hsf] at ht; cases ht; exact hff
      · rw [hst] at ht; cases ht; exact hft
  have hbd : Bounded (fun _ _ => False) EM (after ops) :=
    ⟨fun _ _ h => h.elim, by rintro a b c ⟨_, rfl, rfl⟩; exact ⟨lt_of_getElem? hsf, lt_of_getElem? hst⟩⟩
  obtain ⟨hok, hle⟩ := run_ok more hstart hbd
  rw [hw] at hi ⊢
  obtain ⟨sf', hsf', hlf⟩ := hle _ sf hsf
  obtain ⟨st', hst', hlt⟩ := hle _ st hst
  have := mArray_read hok hi hsf' hst' (Or.inr ⟨hnew, rfl, rfl⟩)
  rw [(hlf.fr hff).1, (hlt.fr hft).1] at this
  exact this

/-- **C26.** A vector without entries shows zeros only, never more than there are keys. -/
theorem C26_empty [Zero V] [Add V] [Mul V] (ops : List (Op K V)) (i : Nat) (v : Vec K V) (hi : (after ops).vs[i]? = some v)
    (he : v.data = []) :
    ∃ s n, (after ops).sp[v.space]? = some s ∧ n ≤ s.keys.length ∧
      (step (.vArray i) (after ops)).2 = .ok (.vec (List.replicate n 0)) := by
  have hok := after_ok ops
  have hv := hok.vs i v hi
  obtain ⟨s, hs, hm⟩ := hv.sp
  have hlen : lenAt (after ops).sp v.space = s.keys.length := by unfold lenAt; rw [hs]; rfl
  dsimp only [step]
  unfold vArray
  rw [hi]
  dsimp only
  by_cases hd : differs v.mcount v.count = true
  · rw [if_pos hd, hlen, he]
    exact ⟨s, s.keys.length, hs, le_refl _, rfl⟩
  · rw [if_neg hd]
    obtain ⟨n, hn1, hn2⟩ := differs_false (by simpa using hd)
    rcases hm n hn2 hn1 with ⟨_, _, l, hl, ha⟩ | ⟨_, _, m, hm1, hm2⟩
    · refine ⟨s, l.length, hs, le_of_eq (hl.length (hok.hp.ok _ s hs).nd), ?_⟩
      rw [ha, he]
      show Except.ok (Out.vec (l.map (fun _ => (0 : V)))) = _
      rw [List.map_const']
    · exact ⟨s, m, hs, hm1, by rw [hm2]⟩

/-- **C26 (disagreement).** The memo does not notice that the space has grown: a vector read while it has no entries keeps an
array that is too short. -/
theorem C26_stale :
    let ops : List (Op Nat Int) := [.newSpace [] false, .newVec 0 [], .vArray 0, .addKeys 0 [7]]
    (step (.vArray 0) (after ops)).2 = .ok (.vec []) ∧
      ∃ s v, (after ops).sp[0]? = some s ∧ (after ops).vs[0]? = some v ∧ v.space = 0 ∧ ¬ IsVecArray s.keys v.data [] := by
  refine ⟨rfl, _, _, rfl, rfl, rfl, ?_⟩
  rintro ⟨l, hl, ha⟩
  have h7 : (7 : Nat) ∈ l := (hl.2 7).mpr (by decide)
  cases l with
  | nil => cases h7
  | cons a l => cases ha

/-- the same for a matrix: one column and one row are missing -/
theorem C26_stale_matrix :
    let ops : List (Op Nat Int) := [.newSpace [] false, .newMat 0 0 [], .mArray 0, .addKeys 0 [7]]
    (step (.mArray 0) (after ops)).2 = .ok (.mat []) ∧
      ∃ s m, (after ops).sp[0]? = some s ∧ (after ops).ms[0]? = some m ∧ m.sfrom = 0 ∧ m.sto = 0 ∧
        ¬ IsMatArray s.keys s.keys m.data [] := by
  refine ⟨rfl, _, _, rfl, rfl, rfl, rfl, ?_⟩
  rintro ⟨lf, lt, hf, ht, ha⟩
  have h7 : (7 : Nat) ∈ lt := (ht.2 7).mpr (by decide)
  cases lt with
  | nil => cases h7
  | cons a l => cases ha

end KeyMat
