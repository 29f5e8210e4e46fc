import Mathlib.Algebra.Order.Ring.Abs
import Mathlib.Algebra.Order.Field.Rat
import Mathlib.Algebra.Order.AbsoluteValue.Basic
import Mathlib.Tactic.Linarith
import Mathlib.Tactic.FieldSimp
import Verif.Solve.Basic
import Verif.Inject.IterateProps

/-!
# The stopping rule (C107) and the orders (C108)
-/

set_option linter.unusedSectionVars false

namespace Solve
open Py Inject

section book
variable {S R C Q D : Type} [DecidableEq Q] [LinearOrder D] {y : Sys S R C Q D}

/-- The step from the iterate `j` is below the tolerance. -/
def Small (y : Sys S R C Q D) (j : Nat) : Prop :=
  ∃ p s, iter y j = .ok p ∧ y.iterate p = .ok s ∧ (y.delta p s).1 < y.max_epsilon

theorem loop_spec {stop : Bool} : ∀ {k n : Nat} {bs bs' : List (Order S R Q D)}, Good y bs → bs.length = n + 1 → (∃ s, iter y n = .ok s) →
    loop y stop k bs = .ok bs' → ∃ n', bs'.length = n' + 1 ∧ n ≤ n' ∧ n' ≤ n + k ∧ (∃ s, iter y n' = .ok s) ∧
      (n' = n + k ∨ (stop = true ∧ n < n' ∧ Small y (n' - 1))) ∧ (stop = true → ∀ j, n ≤ j → j + 1 < n' → ¬ Small y j) := by
  intro k
  induction k with
  | zero =>
    intro n bs bs' h hl hi hr
    cases hr
    exact ⟨n, hl, le_refl _, le_refl _, hi, Or.inl rfl, fun _ j h1 h2 => by omega⟩
  | succ k ih =>
    intro n bs bs' h hl hi hr
    unfold loop at hr
    obtain ⟨⟨b, bs1⟩, h1, hr⟩ := bind_ok_inv hr
    obtain ⟨g, kp, -, p, hp, hs, hd⟩ := iterate_last h h1
    have hl1 : bs1.length = n + 1 + 1 := by rw [kp.length]; simp [hl]
    have e : bs.length - 1 = n := by omega
    rw [e] at hp
    dsimp only at hr
    by_cases hc : stop = true ∧ b.2.1 < y.max_epsilon
    · rw [if_pos hc] at hr
      cases hr
      refine ⟨n + 1, hl1, by omega, by omega, ⟨_, iter_succ hp hs⟩, Or.inr ⟨hc.1, by omega, p, b.1, hp, hs, ?_⟩, fun _ j h2 h3 => by omega⟩
      rw [← hd]
      exact hc.2
    · rw [if_neg hc] at hr
      by_cases hw : stop = true ∧ y.warning_N < bs1.length ∧ b.2.2 = false
      · rw [if_pos hw] at hr; cases hr
      · rw [if_neg hw] at hr
        obtain ⟨n', a1, a2, a3, a4, a5, a6⟩ := ih g hl1 ⟨_, iter_succ hp hs⟩ hr
        refine ⟨n', a1, by omega, by omega, a4, ?_, ?_⟩
        · rcases a5 with q | ⟨q1, q2, q3⟩
          · exact Or.inl (by omega)
          · exact Or.inr ⟨q1, by omega, q3⟩
        · intro hst j h2 h3
          by_cases hj : j = n
          · subst hj
            rintro ⟨p', s', h4, h5, h6⟩
            rw [hp] at h4
            cases h4
            rw [hs] at h5
            cases h5
            exact hc ⟨hst, by rw [hd]; exact h6⟩
          · exact a6 hst j (by omega) h3

theorem solve_spec (he : y.exact_order = none) {bs : List (Order S R Q D)} (hr : solve y none y.start.orders = .ok bs) :
    ∃ n, n ≤ y.max_N ∧ (∃ s, iter y n = .ok s) ∧ (n = y.max_N ∨ (0 < n ∧ Small y (n - 1))) ∧ (∀ j, j + 1 < n → ¬ Small y j) ∧
      bs.length = (if n + 1 = y.max_N then n + 2 else n + 1) ∧ Good y bs := by
  have hg := solve_good (Good.start y) hr
  unfold solve at hr
  rw [he] at hr
  obtain ⟨bs1, h1, hr⟩ := bind_ok_inv hr
  cases hr
  obtain ⟨n, a1, a2, a3, a4, a5, a6⟩ := loop_spec (Good.start y) (n := 0) rfl ⟨_, rfl⟩ h1
  have e : (none : Option Nat).getD y.max_N + 1 - y.start.orders.length = y.max_N := by show y.max_N + 1 - 1 = _; omega
  rw [e, Nat.zero_add] at a3 a5
  refine ⟨n, a3, a4, ?_, fun j hj => a6 rfl j (Nat.zero_le _) hj, ?_, hg⟩
  · rcases a5 with q | ⟨_, q2, q3⟩
    · exact Or.inl q
    · exact Or.inr ⟨q2, q3⟩
  · rw [a1]
    show List.length (if n + 1 = y.max_N then _ else _) = _
    split_ifs with q
    · simp [a1]
    · exact a1

theorem driven_none {q : Q} {b : Book S R C Q D} {k : Nat} (hl : b.orders.length = k + 2) :
    driven y q none b = driven y q (some ((k : Int) + 1)) b := by
  have : find_order y none b.orders = find_order y (some ((k : Int) + 1)) b.orders := by
    unfold find_order
    dsimp only
    rw [if_neg (by omega), if_neg (show ¬ ((k : Int) + 1 < 0) by omega), if_neg (show ¬ ((k : Int) + 1 < 0) by omega),
      if_pos (by rw [hl]; push_cast; omega)]
    show Except.ok _ = Except.ok _
    rw [hl]
    congr 2
  unfold driven
  rw [this]

theorem coupling_last {q : Q × Q} {b : Book S R C Q D} {k : Nat} (hl : b.orders.length = k + 2) :
    coupling y q (some (-1)) b = coupling y q (some ((k : Int) + 1)) b := by
  unfold coupling
  dsimp only
  rw [if_pos (by decide), if_neg (show ¬ ((k : Int) + 1 ≤ 0) by omega), hl,
    show (((k + 2 : Nat) : Int) + -1) = (k : Int) + 1 by push_cast; ring]

/-- A run of the loop raises only what a step of the iteration raises, if a change with no worst key counts as small. -/
theorem loop_ok {stop : Bool} (hw : ∀ p s, (y.delta p s).2 = false → (y.delta p s).1 < y.max_epsilon) (hi : ∀ n, ∃ s, iter y n = .ok s) :
    ∀ {k : Nat} {bs : List (Order S R Q D)}, Good y bs → ∃ bs', loop y stop k bs = .ok bs' := by
  intro k
  induction k with
  | zero => intro bs h; exact ⟨bs, rfl⟩
  | succ k ih =>
    intro bs h
    have hpos := h.pos
    obtain ⟨n, hn⟩ : ∃ n, bs.length = n + 1 := ⟨bs.length - 1, by omega⟩
    obtain ⟨p, hp⟩ := hi n
    obtain ⟨s, hs⟩ := hi (n + 1)
    obtain ⟨e, bs1, h1⟩ := pert_ok h.append (N := n) (by simp [hn]) hp
    have h2 : ∃ b bs2, perturbation_iterate y ((bs ++ [(.empty : Order S R Q D)]).length - 1) (bs ++ [.empty]) = .ok (b, bs2) := by
      unfold perturbation_iterate iterate_with
      have e1 : (bs ++ [(.empty : Order S R Q D)]).length - 1 - 1 = n := by simp [hn]
      rw [e1, h1, bind_ok]
      obtain ⟨p', hp', hs'⟩ := bind_ok_inv hs
      rw [hp] at hp'
      cases hp'
      show ∃ b bs2, (y.iterate p >>= _) = _
      rw [hs', bind_ok]
      exact ⟨_, _, rfl⟩
    obtain ⟨b, bs2, h2⟩ := h2
    obtain ⟨g, -, -, p', -, -, hd⟩ := iterate_last h h2
    unfold loop
    show ∃ bs', (perturbation_iterate y _ _ >>= _) = _
    rw [h2, bind_ok]
    dsimp only
    by_cases hc : stop = true ∧ b.2.1 < y.max_epsilon
    · rw [if_pos hc]; exact ⟨_, rfl⟩
    · rw [if_neg hc, if_neg]
      · exact ih g
      · rintro ⟨q1, -, q3⟩
        apply hc
        rw [hd] at q3 ⊢
        exact ⟨q1, hw _ _ q3⟩

/-- **C108.**  Whatever uses of the solver object returned before, a solution of order `N ≥ 1` is that of the system linearised at the
iterate `N - 1` of the operating point, likewise couplings of order `N`; the operating point of order `N` is the iterate `N`. -/
theorem C108_history {calls : List (Call Q)} {b : Book S R C Q D} (hc : calls.foldlM (Call.run y) y.start = .ok b) :
    (∀ q (n : Nat) r b', driven y q (some ((n : Int) + 1)) b = .ok (r, b') → ∃ p, iter y n = .ok p ∧ y.read q p = .ok r) ∧
    (∀ q (n : Nat) c b', coupling y q (some ((n : Int) + 1)) b = .ok (c, b') → ∃ p, iter y n = .ok p ∧ y.couple q p = .ok c) ∧
    (∀ (n : Nat) s bs, driven_pert y (some (n : Int)) b.orders = .ok (s, bs) → iter y n = .ok s) := by
  have h : Right y b := by
    have : ∀ (calls : List (Call Q)) (a b : Book S R C Q D), Right y a → calls.foldlM (Call.run y) a = .ok b → Right y b := by
      intro calls
      induction calls with
      | nil => intro a b ha hc; cases hc; exact ha
      | cons c cs ih =>
        intro a b ha hc
        obtain ⟨a', h1, h2⟩ := foldlM_cons_ok hc
        exact ih a' b (run_right ha h1) h2
    exact this calls _ _ (.start y) hc
  exact ⟨fun q n r b' hr => (driven_spec h hr).2 n rfl, fun q n c b' hr => (coupling_spec h hr).2 n rfl,
    fun n s bs hr => (driven_pert_spec h.orders hr).2 n rfl⟩

end book

/-! ### The change of the fields -/

section delta
variable {P K F D : Type} [DecidableEq P] [DecidableEq K] [Field F] [DecidableEq F] [Field D] [LinearOrder D] [IsStrictOrderedRing D]
variable {ab : F → D}

/-- The change of one field is below the tolerance. -/
def Near (ab : F → D) (eps : D) (prev : SolVec P K F) (kv : (P × K) × F) : Prop :=
  1 / 10 ^ 16 < max (ab kv.2) (ab (getd prev kv.1 0)) →
    ab (kv.2 - getd prev kv.1 0) < eps * max (ab kv.2) (ab (getd prev kv.1 0))

theorem delta_spec (prev : SolVec P K F) {eps : D} (he : 0 < eps) (new : SolVec P K F) :
    ((delta_v_compute ab prev new).1 < eps ↔ ∀ kv ∈ new, Near ab eps prev kv) ∧
      ((delta_v_compute ab prev new).2 = none → (delta_v_compute ab prev new).1 < eps) := by
  have key : ∀ (new : SolVec P K F) (acc : D × Option (P × K)), (acc.2 = none → acc.1 < eps) →
      ∀ r, r = new.foldl (fun acc kv =>
        let v_prev := Inject.getd prev kv.1 0
        let av_maxel := max (ab kv.2) (ab v_prev)
        if av_maxel ≠ 0 ∧ 1 / 10 ^ 16 < av_maxel then
          let local_max := ab (kv.2 - v_prev) / av_maxel
          let d := max acc.1 local_max
          (d, if d = local_max then some kv.1 else acc.2)
        else acc) acc →
      (r.1 < eps ↔ acc.1 < eps ∧ ∀ kv ∈ new, Near ab eps prev kv) ∧ (r.2 = none → r.1 < eps) := by
    intro new
    induction new with
    | nil => intro acc ha r hr; subst hr; exact ⟨by simp, ha⟩
    | cons kv l ih =>
      intro acc ha r hr
      rw [List.foldl_cons] at hr
      set mx := max (ab kv.2) (ab (getd prev kv.1 0)) with hmx
      by_cases hc : mx ≠ 0 ∧ 1 / 10 ^ 16 < mx
      · have hpos : 0 < mx := lt_trans (by positivity) hc.2
        dsimp only at hr
        rw [if_pos hc] at hr
        obtain ⟨i1, i2⟩ := ih _ (by
          dsimp only
          intro q
          split_ifs at q with hq
          have hlt : ab (kv.2 - getd prev kv.1 0) / mx < acc.1 := by
            rcases lt_or_ge (ab (kv.2 - getd prev kv.1 0) / mx) acc.1 with h | h
            · exact h
            · exact absurd (max_eq_right h) hq
          rw [max_eq_left (le_of_lt hlt)]
          exact ha q) r hr
        refine ⟨?_, i2⟩
        rw [i1]
        dsimp only
        rw [max_lt_iff, div_lt_iff₀ hpos]
        constructor
        · rintro ⟨⟨h1, h2⟩, h3⟩
          refine ⟨h1, ?_⟩
          intro kv' hkv
          rcases List.mem_cons.mp hkv with rfl | hkv
          · exact fun _ => h2
          · exact h3 _ hkv
        · rintro ⟨h1, h2⟩
          exact ⟨⟨h1, h2 kv (by simp) hc.2⟩, fun kv' hkv => h2 _ (List.mem_cons_of_mem _ hkv)⟩
      · dsimp only at hr
        rw [if_neg hc] at hr
        obtain ⟨i1, i2⟩ := ih acc ha r hr
        refine ⟨?_, i2⟩
        rw [i1]
        have : Near ab eps prev kv := by
          intro h
          exact absurd ⟨(lt_trans (by positivity) h).ne', h⟩ hc
        constructor
        · rintro ⟨h1, h2⟩
          refine ⟨h1, fun kv' hkv => ?_⟩
          rcases List.mem_cons.mp hkv with rfl | hkv
          · exact this
          · exact h2 _ hkv
        · rintro ⟨h1, h2⟩
          exact ⟨h1, fun kv' hkv => h2 _ (List.mem_cons_of_mem _ hkv)⟩
  obtain ⟨k1, k2⟩ := key new (0, none) (fun _ => he) _ rfl
  refine ⟨?_, k2⟩
  exact k1.trans ⟨fun h => h.2, fun h => ⟨he, h⟩⟩

variable [Fintype P] [Fintype K]

/-- The solver object of a system of couplings: `Q` names sets of readouts. -/
def object {Q C : Type} (ab : F → D) (o : Graph.Opts (P × K) F) (pick : List (P × K) → P × K) (m : Algo P K F) (bonds : SetDict P K)
    (csgb : SG (P × K)) (sets : Q → List (P × K)) (couple : Q × Q → SolVec P K F → Except Err C) (inf max_epsilon : D) (max_N warning_N : Nat)
    (exact_order : Option Nat) : Sys (SolVec P K F) (SolVec P K F) C Q D where
  iterate := Inject.perturbation_iterate o pick m bonds csgb
  read := fun q sol => Inject.driven_solution_get o m bonds csgb (sets q) sol
  couple := couple
  delta := fun p s => ((delta_v_compute ab p s).1, (delta_v_compute ab p s).2.isSome)
  init := []
  inf := inf
  max_epsilon := max_epsilon
  max_N := max_N
  warning_N := warning_N
  exact_order := exact_order

section object
variable {Q C : Type} [DecidableEq Q] {o : Graph.Opts (P × K) F} {pick : List (P × K) → P × K} {m : Algo P K F} {bonds : SetDict P K}
  {csgb : SG (P × K)} {sets : Q → List (P × K)} {couple : Q × Q → SolVec P K F → Except Err C} {inf eps : D} {max_N warning_N : Nat}

/-- **C107**, for the fields that the last iterate holds.  `solve` takes `n ≤ max_N` steps from zero fields; when it stops before
`max_N`, every field of the last iterate above `1e-16` differs from that of the iterate before by less than the tolerance relative to the
larger of the two, and no earlier step was like that.  Readouts and couplings asked for then belong to the system linearised at the
iterate `n - 1`, or `n` if `n + 1 = max_N`. -/
theorem C107_stop_partial (he : 0 < eps) (hN : 0 < max_N) {bs}
    (hr : solve (object ab o pick m bonds csgb sets couple inf eps max_N warning_N none) none
      (object ab o pick m bonds csgb sets couple inf eps max_N warning_N none).start.orders = .ok bs) :
    ∃ (n : Nat) (x : Nat → SolVec P K F), 0 < n ∧ n ≤ max_N ∧ bs.length = (if n + 1 = max_N then n + 2 else n + 1) ∧ x 0 = [] ∧
      (∀ k < n, Inject.perturbation_iterate o pick m bonds csgb (x k) = .ok (x (k + 1))) ∧
      (n < max_N → ∀ kv ∈ x n, Near ab eps (x (n - 1)) kv) ∧
      (∀ k, 0 < k → k < n → ∃ kv ∈ x k, ¬ Near ab eps (x (k - 1)) kv) ∧
      (∀ q r b', driven (object ab o pick m bonds csgb sets couple inf eps max_N warning_N none) q none ⟨bs, []⟩ = .ok (r, b') →
        Inject.driven_solution_get o m bonds csgb (sets q) (x (if n + 1 = max_N then n else n - 1)) = .ok r) ∧
      (∀ q c b', coupling (object ab o pick m bonds csgb sets couple inf eps max_N warning_N none) q (some (-1)) ⟨bs, []⟩ = .ok (c, b') →
        couple q (x (if n + 1 = max_N then n else n - 1)) = .ok c) := by
  set y := object ab o pick m bonds csgb sets couple inf eps max_N warning_N none with hy
  obtain ⟨n, h1, h2, h3, h4, h5, h6⟩ := solve_spec rfl hr
  change n ≤ max_N at h1
  change n = max_N ∨ _ at h3
  change _ = (if n + 1 = max_N then _ else _) at h5
  have hn : 0 < n := by
    rcases h3 with q | q
    · omega
    · exact q.1
  have hdown : ∀ k, k ≤ n → ∃ s, iter y k = .ok s := by
    intro k hk
    obtain ⟨d, rfl⟩ := Nat.exists_eq_add_of_le hk
    clear hk h1 h3 h4 h5 hn
    induction d with
    | zero => exact h2
    | succ d ih =>
      obtain ⟨s, hs⟩ := h2
      obtain ⟨p, hp, _⟩ := bind_ok_inv (show (iter y (k + d) >>= y.iterate) = _ from hs)
      exact ih ⟨p, hp⟩
  have hx : ∃ x : Nat → SolVec P K F, ∀ k, k ≤ n → iter y k = .ok (x k) := by
    classical
    refine ⟨fun k => if h : k ≤ n then (hdown k h).choose else [], fun k hk => ?_⟩
    dsimp only
    rw [dif_pos hk]
    exact (hdown k hk).choose_spec
  obtain ⟨x, hx⟩ := hx
  have hstep : ∀ k < n, Inject.perturbation_iterate o pick m bonds csgb (x k) = .ok (x (k + 1)) := by
    intro k hk
    have := hx (k + 1) hk
    obtain ⟨p, hp, hs⟩ := bind_ok_inv (show (iter y k >>= y.iterate) = _ from this)
    rw [hx k (by omega)] at hp
    cases hp
    exact hs
  have hsmall : ∀ k < n, Small y k ↔ ∀ kv ∈ x (k + 1), Near ab eps (x k) kv := by
    intro k hk
    rw [← (delta_spec (x k) he (x (k + 1))).1]
    constructor
    · rintro ⟨p, s, q1, q2, q3⟩
      rw [hx k (by omega)] at q1
      cases q1
      rw [show y.iterate (x k) = .ok (x (k + 1)) from hstep k hk] at q2
      cases q2
      exact q3
    · intro q
      exact ⟨x k, x (k + 1), hx k (by omega), hstep k hk, q⟩
  have hlen : ∃ k, bs.length = k + 2 ∧ k = if n + 1 = max_N then n else n - 1 := by
    refine ⟨_, ?_, rfl⟩
    rw [h5]
    split_ifs <;> omega
  obtain ⟨k, hk1, hk2⟩ := hlen
  have hkn : k ≤ n := by rw [hk2]; split_ifs <;> omega
  refine ⟨n, x, hn, h1, h5, ?_, hstep, ?_, ?_, ?_, ?_⟩
  · have := hx 0 (by omega)
    injection this with this
    exact this.symm
  · intro hlt
    rcases h3 with q | ⟨_, q⟩
    · omega
    · have := (hsmall (n - 1) (by omega)).mp q
      rwa [show n - 1 + 1 = n by omega] at this
  · intro j hj hjn
    have := h4 (j - 1) (by omega)
    rw [hsmall (j - 1) (by omega), show j - 1 + 1 = j by omega] at this
    push Not at this
    exact this
  · intro q r b' hd
    rw [driven_none (k := k) hk1] at hd
    obtain ⟨p, p1, p2⟩ := (driven_spec ⟨h6, by intro N d q c h; cases h⟩ hd).2 k rfl
    rw [hx k hkn] at p1
    cases p1
    rw [← hk2]
    exact p2
  · intro q c b' hd
    rw [coupling_last (k := k) hk1] at hd
    obtain ⟨p, p1, p2⟩ := (coupling_spec ⟨h6, by intro N d q c h; cases h⟩ hd).2 k rfl
    rw [hx k hkn] at p1
    cases p1
    rw [← hk2]
    exact p2

/-- **C107** with a set order `e`: exactly `e` steps from zero fields, and readouts asked for then belong to the system linearised at the
last of them. -/
theorem C107_exact {e : Nat} {order : Option Nat} {bs}
    (hr : solve (object ab o pick m bonds csgb sets couple inf eps max_N warning_N (some e)) order
      (object ab o pick m bonds csgb sets couple inf eps max_N warning_N (some e)).start.orders = .ok bs) :
    ∃ x : Nat → SolVec P K F, x 0 = [] ∧ (∀ k < e, Inject.perturbation_iterate o pick m bonds csgb (x k) = .ok (x (k + 1))) ∧
      (∀ q r b', driven (object ab o pick m bonds csgb sets couple inf eps max_N warning_N (some e)) q none ⟨bs, []⟩ = .ok (r, b') →
        Inject.driven_solution_get o m bonds csgb (sets q) (x e) = .ok r) := by
  set y := object ab o pick m bonds csgb sets couple inf eps max_N warning_N (some e) with hy
  have hg := solve_good (Good.start y) hr
  change (loop y false (e + 1 - y.start.orders.length) y.start.orders >>= fun bs => _) = _ at hr
  obtain ⟨bs1, h1, hr2⟩ := bind_ok_inv hr
  obtain ⟨n, a1, -, -, a4, a5, -⟩ := loop_spec (Good.start y) (n := 0) rfl ⟨_, rfl⟩ h1
  have hn : n = e := by
    rcases a5 with q | q
    · rw [q]; show 0 + (e + 1 - 1) = e; omega
    · cases q.1
  subst hn
  injection hr2 with hr2
  have hl : bs.length = n + 2 := by rw [← hr2]; simp [a1]
  have hdown : ∀ d k, k + d = n → ∃ s, iter y k = .ok s := by
    intro d
    induction d with
    | zero => intro k hk; rw [show k = n by omega]; exact a4
    | succ d ih =>
      intro k hk
      obtain ⟨s, hs⟩ := ih (k + 1) (by omega)
      obtain ⟨p, hp, _⟩ := bind_ok_inv (show (iter y k >>= y.iterate) = _ from hs)
      exact ⟨p, hp⟩
  have hx : ∃ x : Nat → SolVec P K F, ∀ k, k ≤ n → iter y k = .ok (x k) := by
    classical
    refine ⟨fun k => if h : k ≤ n then (hdown (n - k) k (by omega)).choose else [], fun k hk => ?_⟩
    dsimp only
    rw [dif_pos hk]
    exact (hdown (n - k) k (by omega)).choose_spec
  obtain ⟨x, hx⟩ := hx
  refine ⟨x, ?_, ?_, ?_⟩
  · have := hx 0 (by omega)
    injection this with this
    exact this.symm
  · intro k hk
    obtain ⟨p, hp, hs⟩ := bind_ok_inv (show (iter y k >>= y.iterate) = _ from hx (k + 1) hk)
    rw [hx k (by omega)] at hp
    cases hp
    exact hs
  · intro q r b' hd
    rw [driven_none (k := n) hl] at hd
    obtain ⟨p, p1, p2⟩ := (driven_spec ⟨hg, by intro N d q c h; cases h⟩ hd).2 n rfl
    rw [hx n (le_refl _)] at p1
    cases p1
    exact p2

/-- **C107**: `solve` raises nothing of its own. -/
theorem C107_returns (he : 0 < eps) {x : Nat → SolVec P K F} (h0 : x 0 = [])
    (hx : ∀ k, Inject.perturbation_iterate o pick m bonds csgb (x k) = .ok (x (k + 1))) {e : Option Nat} (order : Option Nat) :
    ∃ bs, solve (object ab o pick m bonds csgb sets couple inf eps max_N warning_N e) order
      (object ab o pick m bonds csgb sets couple inf eps max_N warning_N e).start.orders = .ok bs := by
  set y := object ab o pick m bonds csgb sets couple inf eps max_N warning_N e with hy
  have hi : ∀ n, iter y n = .ok (x n) := by
    intro n
    induction n with
    | zero => rw [h0]; rfl
    | succ n ih => exact iter_succ ih (hx n)
  have hw : ∀ p s, (y.delta p s).2 = false → (y.delta p s).1 < y.max_epsilon := by
    intro p s h
    refine (delta_spec p he s).2 ?_
    cases hh : (delta_v_compute ab p s).2 with
    | none => rfl
    | some k =>
      have : (y.delta p s).2 = true := by show (delta_v_compute ab p s).2.isSome = true; rw [hh]; rfl
      rw [this] at h
      cases h
  unfold solve
  split
  · obtain ⟨bs, h⟩ := loop_ok (stop := false) hw (fun n => ⟨_, hi n⟩) (k := _) (Good.start y)
    rw [h]
    exact ⟨_, rfl⟩
  · obtain ⟨bs, h⟩ := loop_ok (stop := order.isNone) hw (fun n => ⟨_, hi n⟩) (k := _) (Good.start y)
    dsimp only
    rw [h]
    exact ⟨_, rfl⟩

end object
end delta

end Solve
