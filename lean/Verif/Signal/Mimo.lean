import Verif.Signal.SisoProps

/-!
# Filters with many inputs and outputs (C134)

Source: `/repo/phasor/signals/mimo_filter.py` and `classical_frequency_test_max` of `/repo/phasor/system/system.py`.
-/

set_option linter.unusedSectionVars false

namespace Signal
open Py Inject Circuit

variable {N P K R F : Type} [DecidableEq N] [DecidableEq P] [DecidableEq K] [AddCommGroup K] [AddCommGroup R] [LinearOrder R]
  [Field F] [StarRing F] [DecidableEq F]

/-! ## model -/

/-- A `TransferFunctionMIMO`, l.22-34: `port_pair_xfers` is a dictionary from the names of an input and an output. -/
structure Mimo (N R F : Type) where
  max_freq : Option R
  port_pair_xfers : Dict (N × N) (F → Except Err F)

/-- l.36-40, the loop which makes the ports; `mkIn n` and `mkOut n` are the objects made in the turn `n`.  The output is put at
the name of the input, l.40. -/
def mimo_ports (mkIn mkOut : ℕ → P) : ℕ → List (N × N) → Dict N P × Dict N P → Dict N P × Dict N P
  | _, [], io => io
  | n, (iname, oname) :: l, (I, O) =>
    let I := if I.has iname then I else I.set iname (mkIn n)
    let O := if O.has oname then O else O.set iname (mkOut n)
    mimo_ports mkIn mkOut (n + 1) l (I, O)

/-- `self.ps_In` and `self.O`. -/
def Mimo.ports (mkIn mkOut : ℕ → P) (e : Mimo N R F) : Dict N P × Dict N P :=
  mimo_ports mkIn mkOut 0 e.port_pair_xfers.keys ([], [])

/-- `classical_frequency_test_max`, system.py l.288-297, for a scalar frequency.  `F.F_Hz` is a value with units, and `0` plus a
value with units is a TypeError (there is no `__radd__`); only the zero key has no frequencies to sum up. -/
def test_max_units (max_freq : Option R) (k : K) : Except Err Bool :=
  match max_freq with
  | none => .ok false
  | some m => if k = 0 then .ok (!decide (0 < m)) else .error .typeError

/-- The keys that are not passed over. -/
def kept (max_freq : Option R) : List K → Except Err (List K)
  | [] => .ok []
  | k :: ks => do
    let t ← test_max_units max_freq k
    let l ← kept max_freq ks
    return if t then l else k :: l

/-- What one pair asks for, l.44-52, with the keys that `port_update_get` gives. -/
def Mimo.ask (e : Mimo N R F) (upd : P → List K) (io : Dict N P × Dict N P) (pair : N × N) : Except Err (List (P × K)) := do
  let p ← io.1.get pair.1
  let ks ← kept e.max_freq (upd p)
  let q ← io.2.get pair.2
  let ls ← kept e.max_freq (upd q)
  return ks.map (fun k => (q, k)) ++ ls.map (fun k => (p, k))

/-- `system_setup_ports`, l.43-53; what was asked for before an exception is not kept. -/
def mimo_asks (e : Mimo N R F) (upd : P → List K) (io : Dict N P × Dict N P) : List (N × N) → Except Err (List (P × K))
  | [] => .ok []
  | pair :: l => do
    let a ← e.ask upd io pair
    let b ← mimo_asks e upd io l
    return a ++ b

/-- `system_setup_ports`, l.43-53. -/
def Mimo.setup_ports (mkIn mkOut : ℕ → P) (upd : P → List K) (e : Mimo N R F) : Except Err (List (P × K)) :=
  mimo_asks e upd (e.ports mkIn mkOut) e.port_pair_xfers.keys

/-- `dd`, l.56-58. -/
def group {X : Type} : List ((N × N) × X) → Dict N (Dict N X) → Dict N (Dict N X)
  | [], dd => dd
  | ((iname, oname), xfer) :: l, dd => group l (dd.set iname (((dd.get? iname).getD []).set oname xfer))

/-- The couplings of one input, l.60-75. -/
def Mimo.input (env : SEnv P K R F) (e : Mimo N R F) (io : Dict N P × Dict N P)
    (d : N × Dict N (F → Except Err F)) : Except Err (List (Coupling P K F)) := do
  let p ← io.1.get d.1
  let ks ← kept e.max_freq (env.keys p)
  blocks (ks.flatMap (fun k => d.2.map (fun ox => do
    let pgain ← ox.2 (env.cast (env.freq k))
    let q ← io.2.get ox.1
    return [.edge (p, k) (q, k) pgain])))

/-- `system_setup_coupling`, l.55-75. -/
def Mimo.setup (env : SEnv P K R F) (mkIn mkOut : ℕ → P) (e : Mimo N R F) : Except Err (List (Coupling P K F)) :=
  blocks ((group e.port_pair_xfers []).map (e.input env (e.ports mkIn mkOut)))

/-- A `MatrixAmplifier`, amplifiers.py l.82-127, whose loops are those of the filter with numbers for the transfer functions and no
`max_freq`. -/
def MatrixAmplifier (port_pair_gains : Dict (N × N) F) : Mimo N R F :=
  ⟨none, port_pair_gains.map (fun x => (x.1, fun _ => .ok x.2))⟩

/-! ## the ports -/

theorem mem_has {V : Type} {d : Dict N V} {a : N} : d.has a = true ↔ ∃ v, d.get? a = some v := by
  simp [Dict.has, Option.isSome_iff_exists]

theorem get_some {V : Type} {d : Dict N V} {a : N} {v : V} (h : d.get? a = some v) : d.get a = .ok v := by
  simp [Dict.get, h]

/-- The objects in a dictionary of ports are those made before the turn `n`, and one is nowhere twice. -/
def Made (mk : ℕ → P) (n : ℕ) (d : Dict N P) : Prop :=
  (∀ a p, d.get? a = some p → ∃ m < n, p = mk m) ∧ ∀ a b p, d.get? a = some p → d.get? b = some p → a = b

theorem Made.put {mk : ℕ → P} (hm : Function.Injective mk) {n : ℕ} {d : Dict N P} (h : Made mk n d) (a : N) :
    Made mk (n + 1) (d.set a (mk n)) := by
  constructor
  · intro b p hb
    rw [Dict.get?_set] at hb
    split at hb
    · cases hb; exact ⟨n, Nat.lt_succ_self n, rfl⟩
    · obtain ⟨m, h1, h2⟩ := h.1 b p hb
      exact ⟨m, Nat.lt_succ_of_lt h1, h2⟩
  · intro b c p hb hc
    rw [Dict.get?_set] at hb hc
    split at hb <;> split at hc
    · subst_vars; rfl
    · cases hb
      obtain ⟨m, h1, h2⟩ := h.1 c _ hc
      exact absurd (hm h2) (Nat.ne_of_gt h1)
    · cases hc
      obtain ⟨m, h1, h2⟩ := h.1 b _ hb
      exact absurd (hm h2) (Nat.ne_of_gt h1)
    · exact h.2 b c p hb hc

theorem Made.later {mk : ℕ → P} {n : ℕ} {d : Dict N P} (h : Made mk n d) : Made mk (n + 1) d :=
  ⟨fun a p ha => by obtain ⟨m, h1, h2⟩ := h.1 a p ha; exact ⟨m, Nat.lt_succ_of_lt h1, h2⟩, h.2⟩

theorem made_ports {mkIn mkOut : ℕ → P} (hi : Function.Injective mkIn) (ho : Function.Injective mkOut) {l : List (N × N)} :
    ∀ {n : ℕ} {io : Dict N P × Dict N P}, Made mkIn n io.1 → Made mkOut n io.2 →
      ∃ n', Made mkIn n' (mimo_ports mkIn mkOut n l io).1 ∧ Made mkOut n' (mimo_ports mkIn mkOut n l io).2 := by
  induction l with
  | nil => intro n io h1 h2; exact ⟨n, h1, h2⟩
  | cons a l ih =>
    intro n io h1 h2
    obtain ⟨i, o⟩ := a
    obtain ⟨I, O⟩ := io
    rw [mimo_ports]
    apply ih
    · dsimp only
      split
      · exact h1.later
      · exact h1.put hi i
    · dsimp only
      split
      · exact h2.later
      · exact h2.put ho i

theorem has_set {V : Type} {d : Dict N V} {a b : N} {v : V} (h : d.has a = true) : (d.set b v).has a = true := by
  obtain ⟨w, hw⟩ := mem_has.1 h
  rw [mem_has, Dict.get?_set]
  split
  · exact ⟨v, rfl⟩
  · exact ⟨w, hw⟩

theorem has_set_self {V : Type} (d : Dict N V) (a : N) (v : V) : (d.set a v).has a = true :=
  mem_has.2 ⟨v, Dict.get?_set_self d a v⟩

/-- Names stay, inputs get ports, and an output which also is the input of the same pair gets a port. -/
theorem has_ports {mkIn mkOut : ℕ → P} {l : List (N × N)} :
    ∀ {n : ℕ} {io : Dict N P × Dict N P},
      (∀ a, io.1.has a = true → (mimo_ports mkIn mkOut n l io).1.has a = true)
      ∧ (∀ a, io.2.has a = true → (mimo_ports mkIn mkOut n l io).2.has a = true)
      ∧ (∀ x ∈ l, (mimo_ports mkIn mkOut n l io).1.has x.1 = true)
      ∧ (∀ x ∈ l, x.1 = x.2 → (mimo_ports mkIn mkOut n l io).2.has x.2 = true)
      ∧ (∀ a, (mimo_ports mkIn mkOut n l io).2.has a = true → io.2.has a = true ∨ ∃ x ∈ l, x.1 = a) := by
  induction l with
  | nil => intro n io; exact ⟨fun _ h => h, fun _ h => h, by simp, by simp, fun _ h => Or.inl h⟩
  | cons a l ih =>
    intro n io
    obtain ⟨i, o⟩ := a
    obtain ⟨I, O⟩ := io
    rw [mimo_ports]
    obtain ⟨h1, h2, h3, h4, h5⟩ := ih (n := n + 1)
      (io := (if I.has i then I else I.set i (mkIn n), if O.has o then O else O.set i (mkOut n)))
    dsimp only at h1 h2 h3 h4 h5 ⊢
    refine ⟨fun a ha => h1 a ?_, fun a ha => h2 a ?_, fun x hx => ?_, fun x hx he => ?_, fun a ha => ?_⟩
    · split
      · exact ha
      · exact has_set ha
    · split
      · exact ha
      · exact has_set ha
    · rcases List.mem_cons.1 hx with rfl | hx
      · refine h1 _ ?_
        split
        · assumption
        · exact has_set_self _ _ _
      · exact h3 x hx
    · rcases List.mem_cons.1 hx with rfl | hx
      · dsimp only at he
        subst he
        refine h2 _ ?_
        split
        · assumption
        · exact has_set_self _ _ _
      · exact h4 x hx he
    · rcases h5 a ha with h | ⟨x, hx, rfl⟩
      · split at h
        · exact Or.inl h
        · obtain ⟨v, hv⟩ := mem_has.1 h
          rw [Dict.get?_set] at hv
          split at hv
          · rename_i hi
            exact Or.inr ⟨(i, o), List.mem_cons_self, hi⟩
          · exact Or.inl (mem_has.2 ⟨v, hv⟩)
      · exact Or.inr ⟨x, List.mem_cons_of_mem _ hx, rfl⟩

/-! ## the loops -/

theorem kept_none (ks : List K) : kept (none : Option R) ks = .ok ks := by
  induction ks with
  | nil => rfl
  | cons k ks ih => simp [kept, test_max_units, ih, bind, Except.bind, pure, Except.pure]

/-- The sum over a dictionary of dictionaries. -/
def sum2 {X : Type} (g : N → N → X → F) (dd : Dict N (Dict N X)) : F :=
  (dd.map (fun d => (d.2.map (fun ox => g d.1 ox.1 ox.2)).sum)).sum

theorem sum_set {V : Type} (g : N → V → F) (d : Dict N V) (a : N) (v : V) :
    ((d.set a v).map (fun x => g x.1 x.2)).sum
      = (d.map (fun x => g x.1 x.2)).sum - (match d.get? a with | some w => g a w | none => 0) + g a v := by
  induction d with
  | nil => simp [Dict.set, Dict.get?]
  | cons x d ih =>
    obtain ⟨b, w⟩ := x
    by_cases hb : b = a
    · subst hb
      simp only [Dict.set, Dict.get?, if_true, List.map_cons, List.sum_cons]
      ring
    · simp only [Dict.set, Dict.get?, if_neg hb, List.map_cons, List.sum_cons, ih]
      ring

theorem sum_group {X : Type} (g : N → N → X → F) {l : List ((N × N) × X)} :
    ∀ {dd : Dict N (Dict N X)}, (l.map Prod.fst).Nodup → (∀ x ∈ l, ((dd.get? x.1.1).getD []).get? x.1.2 = none) →
      sum2 g (group l dd) = sum2 g dd + (l.map (fun x => g x.1.1 x.1.2 x.2)).sum := by
  induction l with
  | nil => intro dd _ _; simp [group]
  | cons a l ih =>
    intro dd hn h
    obtain ⟨⟨i, o⟩, f⟩ := a
    rw [List.map_cons, List.nodup_cons] at hn
    rw [group, ih hn.2]
    · have e := sum_set (fun a d => ((d : Dict N X).map (fun ox => g a ox.1 ox.2)).sum) dd i (((dd.get? i).getD []).set o f)
      have h0 := h ((i, o), f) List.mem_cons_self
      dsimp only at h0
      have e2 := sum_set (fun b x => g i b x) ((dd.get? i).getD []) o f
      rw [h0] at e2
      unfold sum2
      rw [e, e2, List.map_cons, List.sum_cons]
      cases dd.get? i with
      | none => simp; ring
      | some d => simp; ring
    · intro x hx
      rw [Dict.get?_set]
      have h1 := h x (List.mem_cons_of_mem _ hx)
      split
      · rename_i hi
        rw [Option.getD_some, Dict.get?_set]
        split
        · rename_i ho
          exact absurd (List.mem_map.2 ⟨x, hx, Prod.ext hi.symm ho.symm⟩) hn.1
        · rw [hi]; exact h1
      · exact h1

/-- What is in the groups is in the list. -/
theorem mem_group {X : Type} {l : List ((N × N) × X)} :
    ∀ {dd : Dict N (Dict N X)} {d : N × Dict N X}, d ∈ group l dd → ∀ ox ∈ d.2,
      ((d.1, ox.1), ox.2) ∈ l ∨ ∃ d' ∈ dd, d'.1 = d.1 ∧ ox ∈ d'.2 := by
  have mset : ∀ {V : Type} {d : Dict N V} {a : N} {v : V} {x : N × V}, x ∈ d.set a v → x = (a, v) ∨ x ∈ d := by
    intro V d a v x hx
    induction d with
    | nil => exact Or.inl (by simpa [Dict.set] using hx)
    | cons y d ih =>
      obtain ⟨b, w⟩ := y
      rw [Dict.set] at hx
      split at hx
      · rename_i hb
        subst hb
        rcases List.mem_cons.1 hx with rfl | hx
        · exact Or.inl rfl
        · exact Or.inr (List.mem_cons_of_mem _ hx)
      · rcases List.mem_cons.1 hx with rfl | hx
        · exact Or.inr List.mem_cons_self
        · rcases ih hx with h | h
          · exact Or.inl h
          · exact Or.inr (List.mem_cons_of_mem _ h)
  induction l with
  | nil => intro dd d hd ox hox; exact Or.inr ⟨d, hd, rfl, hox⟩
  | cons a l ih =>
    intro dd d hd ox hox
    obtain ⟨⟨i, o⟩, f⟩ := a
    rw [group] at hd
    rcases ih hd ox hox with h | ⟨d', h1, h2, h3⟩
    · exact Or.inl (List.mem_cons_of_mem _ h)
    · rcases mset h1 with rfl | h1
      · dsimp only at h2 h3
        rcases mset h3 with rfl | h3
        · subst h2; exact Or.inl List.mem_cons_self
        · right
          cases hg : dd.get? i with
          | none => rw [hg] at h3; simp at h3
          | some e =>
            rw [hg] at h3
            exact ⟨(i, e), Dict.mem_of_get? hg, h2, h3⟩
      · exact Or.inr ⟨d', h1, h2, h3⟩

theorem key_group {X : Type} {l : List ((N × N) × X)} :
    ∀ {dd : Dict N (Dict N X)} {d : N × Dict N X}, d ∈ group l dd → (∃ x ∈ l, x.1.1 = d.1) ∨ d.1 ∈ dd.keys := by
  induction l with
  | nil => intro dd d hd; exact Or.inr (List.mem_map_of_mem hd)
  | cons a l ih =>
    intro dd d hd
    obtain ⟨⟨i, o⟩, f⟩ := a
    rw [group] at hd
    rcases ih hd with ⟨x, h1, h2⟩ | h
    · exact Or.inl ⟨x, List.mem_cons_of_mem _ h1, h2⟩
    · rw [Dict.mem_keys_iff, Dict.get?_set] at h
      split at h
      · rename_i hi
        exact Or.inl ⟨_, List.mem_cons_self, hi⟩
      · exact Or.inr ((Dict.mem_keys_iff _ _).2 h)

theorem sum_exchange {α β : Type} (ks : List α) (l : List β) (f : α → β → F) :
    (ks.map (fun k => (l.map (f k)).sum)).sum = (l.map (fun b => (ks.map (fun k => f k b)).sum)).sum := by
  induction l with
  | nil => simp
  | cons b l ih => simp only [List.map_cons, List.sum_cons, ← ih, List.sum_map_add]

theorem sum_at {ks : List K} (hn : ks.Nodup) (q : P) (t : P × K) (h : K → F) :
    (ks.map (fun k => if (q, k) = t then h k else 0)).sum = if q = t.1 ∧ t.2 ∈ ks then h t.2 else 0 := by
  obtain ⟨r, j⟩ := t
  by_cases hq : q = r ∧ j ∈ ks
  · rw [if_pos hq, keyed_sum hn hq.2]
    · rw [if_pos (by rw [hq.1])]
    · intro k' _ hk
      rw [if_neg (fun e => hk (congrArg Prod.snd e))]
  · rw [if_neg hq]
    apply List.sum_eq_zero
    intro v hv
    obtain ⟨k, hk, rfl⟩ := List.mem_map.1 hv
    rw [if_neg]
    intro e
    injection e with e1 e2
    exact hq ⟨e1, e2 ▸ hk⟩

theorem sum_flatMap' {α : Type} (l : List α) (f : α → List (Except Err (List (Coupling P K F)))) (x : P × K → F) (t : P × K) :
    ((l.flatMap f).map (part x t)).sum = (l.map (fun a => ((f a).map (part x t)).sum)).sum := by
  induction l with
  | nil => rfl
  | cons a l ih => simp [List.flatMap_cons, ih]

/-- One input whose outputs all have ports. -/
theorem input_total {env : SEnv P K R F} {e : Mimo N R F} (hmax : e.max_freq = none) {io : Dict N P × Dict N P}
    {d : N × Dict N (F → Except Err F)} {p : P} (hp : io.1.get? d.1 = some p) {Q : N → P}
    (hQ : ∀ ox ∈ d.2, io.2.get? ox.1 = some (Q ox.1)) {G : N → K → F}
    (hG : ∀ ox ∈ d.2, ∀ k, ox.2 (env.cast (env.freq k)) = .ok (G ox.1 k)) (hn : (env.keys p).Nodup) :
    ∃ cs, e.input env io d = .ok cs ∧ ∀ x t, total cs x t = (d.2.map (fun ox =>
      if Q ox.1 = t.1 ∧ t.2 ∈ env.keys p then G ox.1 t.2 * x (p, t.2) else 0)).sum := by
  have hb : ∀ ox ∈ d.2, ∀ k, (do
      let pgain ← ox.2 (env.cast (env.freq k))
      let q ← io.2.get ox.1
      return [.edge (p, k) (q, k) pgain] : Except Err (List (Coupling P K F)))
        = .ok [.edge (p, k) (Q ox.1, k) (G ox.1 k)] := by
    intro ox hox k
    simp [hG ox hox k, Dict.get, hQ ox hox, bind, Except.bind, pure, Except.pure]
  have hi : e.input env io d = blocks ((env.keys p).flatMap (fun k => d.2.map (fun ox => do
      let pgain ← ox.2 (env.cast (env.freq k))
      let q ← io.2.get ox.1
      return [.edge (p, k) (q, k) pgain]))) := by
    simp only [Mimo.input, Dict.get, hp, hmax, kept_none, bind, Except.bind]
  obtain ⟨cs, hc⟩ := blocks_ok (bs := (env.keys p).flatMap (fun k => d.2.map (fun ox => (do
      let pgain ← ox.2 (env.cast (env.freq k))
      let q ← io.2.get ox.1
      return [.edge (p, k) (q, k) pgain] : Except Err (List (Coupling P K F)))))) (by
    intro b hb'
    obtain ⟨k, _, hk⟩ := List.mem_flatMap.1 hb'
    obtain ⟨ox, hox, rfl⟩ := List.mem_map.1 hk
    exact ⟨_, hb ox hox k⟩)
  refine ⟨cs, hi.trans hc, fun x t => ?_⟩
  rw [(blocks_sum hc).2 x t, sum_flatMap']
  have : ∀ k, ((d.2.map (fun ox => (do
      let pgain ← ox.2 (env.cast (env.freq k))
      let q ← io.2.get ox.1
      return [.edge (p, k) (q, k) pgain] : Except Err (List (Coupling P K F))))).map (part x t)).sum
      = (d.2.map (fun ox => if (Q ox.1, k) = t then G ox.1 k * x (p, k) else 0)).sum := by
    intro k
    rw [List.map_map]
    congr 1
    apply List.map_congr_left
    intro ox hox
    rw [Function.comp_apply, hb ox hox k]
    exact total_single _ _ _
  simp only [this]
  rw [sum_exchange]
  congr 1
  apply List.map_congr_left
  intro ox _
  exact sum_at hn (Q ox.1) t (fun k => G ox.1 k * x (p, k))

/-! ## C134 -/

/-- **C134, in part.**  When each output has the name of an input and a pair with that input, the filter without `max_freq` makes a
port for each name, different ones for different names, and its couplings send to the output `o` the sum over the pairs with that
output of the transfer function at the frequency of the key times the input, and nothing to any other port.  Missing: outputs
with names of their own, see `C134_names_refuted`, and `max_freq`, see `C134_max_refuted`. -/
theorem C134_filter_partial {env : SEnv P K R F} {e : Mimo N R F} (hmax : e.max_freq = none) (hd : e.port_pair_xfers.keys.Nodup)
    {mkIn mkOut : ℕ → P} (hi : Function.Injective mkIn) (ho : Function.Injective mkOut) (hio : ∀ m n, mkIn m ≠ mkOut n)
    (hnames : ∀ a b, (a, b) ∈ e.port_pair_xfers.keys → (b, b) ∈ e.port_pair_xfers.keys)
    {G : N → N → K → F} (hG : ∀ a b f, ((a, b), f) ∈ e.port_pair_xfers → ∀ k, f (env.cast (env.freq k)) = .ok (G a b k))
    (hk : ∀ p, (env.keys p).Nodup) :
    ∃ (I O : N → P) (cs : List (Coupling P K F)), e.setup env mkIn mkOut = .ok cs
      ∧ (∀ x ∈ e.port_pair_xfers, (e.ports mkIn mkOut).1.get x.1.1 = .ok (I x.1.1) ∧ (e.ports mkIn mkOut).2.get x.1.2 = .ok (O x.1.2))
      ∧ (∀ x ∈ e.port_pair_xfers, ∀ y ∈ e.port_pair_xfers,
          (I x.1.1 = I y.1.1 → x.1.1 = y.1.1) ∧ (O x.1.2 = O y.1.2 → x.1.2 = y.1.2) ∧ I x.1.1 ≠ O y.1.2)
      ∧ ∀ (x : P × K → F) (t : P × K), (cs.map (fun c => c.into x t)).sum = (e.port_pair_xfers.map (fun pr =>
          if O pr.1.2 = t.1 ∧ t.2 ∈ env.keys (I pr.1.1) then G pr.1.1 pr.1.2 t.2 * x (I pr.1.1, t.2) else 0)).sum := by
  obtain ⟨n', mI, mO⟩ := made_ports hi ho (l := e.port_pair_xfers.keys) (n := 0) (io := ([], []))
    ⟨by simp, by simp⟩ ⟨by simp, by simp⟩
  obtain ⟨_, _, h3, h4, _⟩ := has_ports (mkIn := mkIn) (mkOut := mkOut) (l := e.port_pair_xfers.keys) (n := 0) (io := ([], []))
  change Made mkIn n' (e.ports mkIn mkOut).1 at mI
  change Made mkOut n' (e.ports mkIn mkOut).2 at mO
  change ∀ x ∈ e.port_pair_xfers.keys, (e.ports mkIn mkOut).1.has x.1 = true at h3
  change ∀ x ∈ e.port_pair_xfers.keys, x.1 = x.2 → (e.ports mkIn mkOut).2.has x.2 = true at h4
  set io := e.ports mkIn mkOut with hio'
  have gI : ∀ x ∈ e.port_pair_xfers, io.1.get? x.1.1 = some ((io.1.get? x.1.1).getD (mkIn 0)) := by
    intro x hx
    obtain ⟨v, hv⟩ := mem_has.1 (h3 x.1 (List.mem_map_of_mem hx))
    rw [hv]; rfl
  have gO : ∀ x ∈ e.port_pair_xfers, io.2.get? x.1.2 = some ((io.2.get? x.1.2).getD (mkIn 0)) := by
    intro x hx
    obtain ⟨v, hv⟩ := mem_has.1 (h4 (x.1.2, x.1.2) (hnames x.1.1 x.1.2 (List.mem_map_of_mem hx)) rfl)
    rw [show (x.1.2, x.1.2).2 = x.1.2 from rfl] at hv
    rw [hv]; rfl
  let I : N → P := fun a => (io.1.get? a).getD (mkIn 0)
  let O : N → P := fun a => (io.2.get? a).getD (mkIn 0)
  have hin : ∀ dg ∈ group e.port_pair_xfers [], ∃ cs, e.input env io dg = .ok cs ∧ ∀ x t, total cs x t = (dg.2.map (fun ox =>
      if O ox.1 = t.1 ∧ t.2 ∈ env.keys (I dg.1) then G dg.1 ox.1 t.2 * x (I dg.1, t.2) else 0)).sum := by
    intro dg hdg
    have hmem : ∀ ox ∈ dg.2, ((dg.1, ox.1), ox.2) ∈ e.port_pair_xfers := by
      intro ox hox
      rcases mem_group hdg ox hox with h | ⟨d', h, _⟩
      · exact h
      · cases h
    have hp : io.1.get? dg.1 = some (I dg.1) := by
      rcases key_group hdg with ⟨x, hx, he⟩ | h
      · rw [← he]; exact gI x hx
      · cases h
    exact input_total hmax hp (Q := O) (fun ox hox => gO _ (hmem ox hox)) (G := G dg.1)
      (fun ox hox k => hG _ _ _ (hmem ox hox) k) (hk _)
  obtain ⟨cs, hc⟩ := blocks_ok (bs := (group e.port_pair_xfers []).map (e.input env io)) (by
    intro b hb
    obtain ⟨dg, hdg, rfl⟩ := List.mem_map.1 hb
    obtain ⟨c, hc, _⟩ := hin dg hdg
    exact ⟨c, hc⟩)
  refine ⟨I, O, cs, hc, fun x hx => ⟨?_, ?_⟩, fun x hx y hy => ⟨fun he => ?_, fun he => ?_, fun he => ?_⟩, fun x t => ?_⟩
  · exact get_some (gI x hx)
  · exact get_some (gO x hx)
  · exact mI.2 _ _ _ (gI x hx) ((gI y hy).trans (congrArg some he.symm))
  · exact mO.2 _ _ _ (gO x hx) ((gO y hy).trans (congrArg some he.symm))
  · obtain ⟨m, _, hm⟩ := mI.1 _ _ (gI x hx)
    obtain ⟨n, _, hn⟩ := mO.1 _ _ (gO y hy)
    exact hio m n (hm.symm.trans (he.trans hn))
  · show total cs x t = _
    rw [(blocks_sum hc).2 x t, List.map_map]
    have e1 : ((group e.port_pair_xfers []).map (part x t ∘ e.input env io)).sum
        = sum2 (fun a b _ => if O b = t.1 ∧ t.2 ∈ env.keys (I a) then G a b t.2 * x (I a, t.2) else 0)
            (group e.port_pair_xfers []) := by
      unfold sum2
      congr 1
      apply List.map_congr_left
      intro dg hdg
      obtain ⟨c, h1, h2⟩ := hin dg hdg
      rw [Function.comp_apply, h1]
      exact h2 x t
    rw [e1, sum_group _ hd (by simp)]
    simp [sum2]

theorem asks_ok {e : Mimo N R F} (hmax : e.max_freq = none) {upd : P → List K} {io : Dict N P × Dict N P} {I O : N → P}
    {l : List (N × N)} (h : ∀ x ∈ l, io.1.get x.1 = .ok (I x.1) ∧ io.2.get x.2 = .ok (O x.2)) :
    mimo_asks e upd io l = .ok (l.flatMap (fun x =>
      (upd (I x.1)).map (fun k => (O x.2, k)) ++ (upd (O x.2)).map (fun k => (I x.1, k)))) := by
  induction l with
  | nil => rfl
  | cons a l ih =>
    obtain ⟨h1, h2⟩ := h a List.mem_cons_self
    rw [mimo_asks, ih (fun x hx => h x (List.mem_cons_of_mem _ hx))]
    simp [Mimo.ask, h1, h2, hmax, kept_none, bind, Except.bind, pure, Except.pure]

/-- **C134, keys.**  Under the same conditions the ports are the same ones, and the filter asks for the keys of each input at the
outputs of its pairs, for the keys of each output at the inputs of its pairs, and for nothing else. -/
theorem C134_keys_partial {e : Mimo N R F} (hmax : e.max_freq = none)
    {mkIn mkOut : ℕ → P} (hnames : ∀ a b, (a, b) ∈ e.port_pair_xfers.keys → (b, b) ∈ e.port_pair_xfers.keys)
    (upd : P → List K) :
    ∃ (I O : N → P) (asked : List (P × K)), e.setup_ports mkIn mkOut upd = .ok asked
      ∧ (∀ x ∈ e.port_pair_xfers.keys, (e.ports mkIn mkOut).1.get x.1 = .ok (I x.1) ∧ (e.ports mkIn mkOut).2.get x.2 = .ok (O x.2))
      ∧ ∀ p k, (p, k) ∈ asked ↔ ∃ x ∈ e.port_pair_xfers.keys, (p = O x.2 ∧ k ∈ upd (I x.1)) ∨ (p = I x.1 ∧ k ∈ upd (O x.2)) := by
  obtain ⟨_, _, h3, h4, _⟩ := has_ports (mkIn := mkIn) (mkOut := mkOut) (l := e.port_pair_xfers.keys) (n := 0) (io := ([], []))
  have hp : ∀ x ∈ e.port_pair_xfers.keys,
      (e.ports mkIn mkOut).1.get x.1 = .ok (((e.ports mkIn mkOut).1.get? x.1).getD (mkIn 0))
      ∧ (e.ports mkIn mkOut).2.get x.2 = .ok (((e.ports mkIn mkOut).2.get? x.2).getD (mkIn 0)) := by
    intro x hx
    obtain ⟨v, hv⟩ := mem_has.1 (h3 x hx)
    obtain ⟨w, hw⟩ := mem_has.1 (h4 (x.2, x.2) (hnames x.1 x.2 hx) rfl)
    change (e.ports mkIn mkOut).1.get? x.1 = some v at hv
    change (e.ports mkIn mkOut).2.get? x.2 = some w at hw
    exact ⟨by rw [get_some hv, hv]; rfl, by rw [get_some hw, hw]; rfl⟩
  refine ⟨fun a => ((e.ports mkIn mkOut).1.get? a).getD (mkIn 0), fun a => ((e.ports mkIn mkOut).2.get? a).getD (mkIn 0), _,
    asks_ok (I := fun a => ((e.ports mkIn mkOut).1.get? a).getD (mkIn 0))
      (O := fun a => ((e.ports mkIn mkOut).2.get? a).getD (mkIn 0)) hmax hp, hp, fun p k => ?_⟩
  simp only [List.mem_flatMap, List.mem_append, List.mem_map, Prod.mk.injEq]
  constructor
  · rintro ⟨x, hx, ⟨k', h1, rfl, rfl⟩ | ⟨k', h1, rfl, rfl⟩⟩
    · exact ⟨x, hx, Or.inl ⟨rfl, h1⟩⟩
    · exact ⟨x, hx, Or.inr ⟨rfl, h1⟩⟩
  · rintro ⟨x, hx, ⟨rfl, h1⟩ | ⟨rfl, h1⟩⟩
    · exact ⟨x, hx, Or.inl ⟨k, h1, rfl, rfl⟩⟩
    · exact ⟨x, hx, Or.inr ⟨k, h1, rfl, rfl⟩⟩

theorem asks_error {e : Mimo N R F} {upd : P → List K} {io : Dict N P × Dict N P} {l : List (N × N)}
    (h : ∃ pr ∈ l, ∃ er, e.ask upd io pr = .error er) : ∃ er, mimo_asks e upd io l = .error er := by
  induction l with
  | nil => obtain ⟨_, h, _⟩ := h; cases h
  | cons a l ih =>
    rw [mimo_asks]
    cases ha : e.ask upd io a with
    | error er => exact ⟨er, rfl⟩
    | ok v =>
      obtain ⟨pr, hpr, er, he⟩ := h
      rcases List.mem_cons.1 hpr with rfl | hpr
      · rw [ha] at he; cases he
      · obtain ⟨er', h'⟩ := ih ⟨pr, hpr, er, he⟩
        exact ⟨er', by rw [h']; rfl⟩

/-- **C134, refuted.**  A filter with an output whose name is not that of an input never gets through the setup of its ports,
whatever the keys are: with no keys at all it is a KeyError. -/
theorem C134_names_refuted {e : Mimo N R F} {a b : N} (hab : (a, b) ∈ e.port_pair_xfers.keys)
    (hb : ∀ c, (b, c) ∉ e.port_pair_xfers.keys) (mkIn mkOut : ℕ → P) (upd : P → List K) :
    (∃ er, e.setup_ports mkIn mkOut upd = .error er) ∧
    (e.port_pair_xfers.keys = [(a, b)] → e.max_freq = none → e.setup_ports mkIn mkOut upd = .error .keyError) := by
  have hO : (e.ports mkIn mkOut).2.get? b = none := by
    cases hg : (e.ports mkIn mkOut).2.get? b with
    | none => rfl
    | some v =>
      rcases has_ports.2.2.2.2 b (mem_has.2 ⟨v, hg⟩) with h | ⟨x, hx, rfl⟩
      · cases h
      · exact absurd hx (hb x.2)
  constructor
  · refine asks_error ⟨(a, b), hab, ?_⟩
    unfold Mimo.ask
    cases (e.ports mkIn mkOut).1.get a with
    | error er => exact ⟨er, rfl⟩
    | ok p =>
      cases hk : kept e.max_freq (upd p) with
      | error er => exact ⟨er, by simp [hk, bind, Except.bind]⟩
      | ok ks => exact ⟨.keyError, by simp [hk, Dict.get, hO, bind, Except.bind]⟩
  · intro hl hm
    obtain ⟨v, hv⟩ := mem_has.1 ((has_ports (mkIn := mkIn) (mkOut := mkOut) (n := 0) (io := ([], []))).2.2.1 (a, b) hab)
    change (e.ports mkIn mkOut).1.get? a = some v at hv
    simp [Mimo.setup_ports, hl, mimo_asks, Mimo.ask, Dict.get, hv, hm, kept_none, hO, bind, Except.bind]

/-- **C134, refuted.**  With a `max_freq` every key with a frequency is a TypeError, below the maximum or not. -/
theorem C134_max_refuted {m : R} {k : K} (hk : k ≠ 0) {ks : List K} (h : k ∈ ks) : kept (some m) ks = .error .typeError := by
  induction ks with
  | nil => cases h
  | cons j ks ih =>
    by_cases hj : j = 0
    · rcases List.mem_cons.1 h with rfl | h
      · exact absurd hj hk
      · simp [kept, test_max_units, hj, ih h, bind, Except.bind]
    · simp [kept, test_max_units, hj, bind, Except.bind]

/-- **C134, amplifiers.**  The same for a `MatrixAmplifier`: its outputs are the product of the matrix of its gains and its inputs. -/
theorem C134_amplifier_partial {env : SEnv P K R F} {g : Dict (N × N) F} (hd : g.keys.Nodup)
    {mkIn mkOut : ℕ → P} (hi : Function.Injective mkIn) (ho : Function.Injective mkOut) (hio : ∀ m n, mkIn m ≠ mkOut n)
    (hnames : ∀ a b, (a, b) ∈ g.keys → (b, b) ∈ g.keys) (hk : ∀ p, (env.keys p).Nodup) :
    ∃ (I O : N → P) (cs : List (Coupling P K F)), (MatrixAmplifier g : Mimo N R F).setup env mkIn mkOut = .ok cs
      ∧ ∀ (x : P × K → F) (k : K), (∀ y ∈ g, k ∈ env.keys (I y.1.1)) → ∀ y ∈ g,
          (cs.map (fun c => c.into x (O y.1.2, k))).sum = (g.map (fun pr =>
            if pr.1.2 = y.1.2 then pr.2 * x (I pr.1.1, k) else 0)).sum := by
  have hkeys : (MatrixAmplifier g : Mimo N R F).port_pair_xfers.keys = g.keys := by
    simp [MatrixAmplifier, Dict.keys]
  obtain ⟨I, O, cs, h1, _, h3, h4⟩ := C134_filter_partial (env := env) (e := (MatrixAmplifier g : Mimo N R F)) rfl
    (by rw [hkeys]; exact hd) hi ho hio (by rw [hkeys]; exact hnames)
    (G := fun a b _ => (g.get? (a, b)).getD 0) (by
      intro a b f hf k
      obtain ⟨y, hy, he⟩ := List.mem_map.1 hf
      obtain ⟨ab, v⟩ := y
      injection he with e1 e2
      dsimp only at e1
      subst e1; subst e2
      rw [Dict.get?_of_mem hd hy]
      rfl) hk
  have hmem : ∀ y ∈ g, (y.1, fun _ => Except.ok y.2) ∈ (MatrixAmplifier g : Mimo N R F).port_pair_xfers :=
    fun y hy => List.mem_map.2 ⟨y, hy, rfl⟩
  refine ⟨I, O, cs, h1, fun x k hx y hy => ?_⟩
  rw [h4 x (O y.1.2, k)]
  show ((g.map _).map _).sum = _
  rw [List.map_map]
  congr 1
  apply List.map_congr_left
  intro z hz
  obtain ⟨⟨a, b⟩, v⟩ := z
  rw [Function.comp_apply]
  dsimp only
  rw [Dict.get?_of_mem hd hz]
  by_cases hb : b = y.1.2
  · rw [if_pos hb, if_pos ⟨by rw [hb], hx _ hz⟩]
    rfl
  · rw [if_neg hb, if_neg (fun h => hb ((h3 _ (hmem _ hz) _ (hmem _ hy)).2.1 h.1))]

/-! ## examples -/

/-- Two inputs and two outputs of the same names. -/
def exMimo : Mimo String ℤ ℚ :=
  ⟨none, [(("a", "a"), fun _ => .ok 1), (("a", "b"), fun f => .ok (f + 2)), (("b", "b"), fun _ => .ok 3)]⟩

example : exMimo.port_pair_xfers.keys.Nodup ∧ ∀ a b, (a, b) ∈ exMimo.port_pair_xfers.keys → (b, b) ∈ exMimo.port_pair_xfers.keys := by
  constructor
  · decide
  · intro a b h
    simp only [exMimo, Dict.keys, List.map_cons, List.map_nil, List.mem_cons, Prod.mk.injEq, List.not_mem_nil, or_false] at h ⊢
    rcases h with ⟨_, rfl⟩ | ⟨_, rfl⟩ | ⟨_, rfl⟩ <;> simp

example : ∃ (e : Mimo String ℤ ℚ) (a b : String), (a, b) ∈ e.port_pair_xfers.keys ∧ (∀ c, (b, c) ∉ e.port_pair_xfers.keys)
    ∧ e.port_pair_xfers.keys = [(a, b)] ∧ e.max_freq = none :=
  ⟨⟨none, [(("in", "out"), fun _ => .ok 1)]⟩, "in", "out", by simp [Dict.keys], by simp [Dict.keys], rfl, rfl⟩

example : (Function.Injective fun n : ℕ => 2 * n) ∧ (Function.Injective fun n : ℕ => 2 * n + 1) ∧ ∀ m n : ℕ, 2 * m ≠ 2 * n + 1 := by
  refine ⟨fun a b h => ?_, fun a b h => ?_, fun m n h => ?_⟩ <;> first | omega | (dsimp only at h; omega)

end Signal
