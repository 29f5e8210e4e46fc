import Verif.Solve.Model
import Verif.Inject.Basic

/-! # The entries of the book are those of the iterates -/

set_option linter.unusedSectionVars false

namespace Solve
open Py Inject

variable {S R C Q D : Type} [DecidableEq Q] [LinearOrder D]

/-- The iterates of the operating point. -/
def iter (y : Sys S R C Q D) : Nat → Except Err S
  | 0 => .ok y.init
  | n + 1 => iter y n >>= y.iterate

theorem iter_succ {y : Sys S R C Q D} {n : Nat} {p s : S} (h : iter y n = .ok p) (hs : y.iterate p = .ok s) : iter y (n + 1) = .ok s := by
  show (iter y n >>= y.iterate) = _
  rw [h]
  exact hs

/-- The orders stored are right. -/
structure Good (y : Sys S R C Q D) (bs : List (Order S R Q D)) : Prop where
  zero : ∃ b, bs[0]? = some b ∧ ∃ e, b.pert = some (y.init, e)
  pert : ∀ N b s e, bs[N + 1]? = some b → b.pert = some (s, e) → ∃ p, iter y N = .ok p ∧ y.iterate p = .ok s ∧ e = y.delta p s
  reads : ∀ N b q r, bs[N + 1]? = some b → Dict.get? b.reads q = some r → ∃ p, iter y N = .ok p ∧ y.read q p = .ok r

theorem Good.pos {y : Sys S R C Q D} {bs : List (Order S R Q D)} (h : Good y bs) : 0 < bs.length := by
  obtain ⟨b, hb, _⟩ := h.zero
  exact (List.getElem?_eq_some_iff.mp hb).1

theorem Good.start (y : Sys S R C Q D) : Good y y.start.orders where
  zero := ⟨_, rfl, _, rfl⟩
  pert := by intro N b s e h; simp [Sys.start] at h
  reads := by intro N b q r h; simp [Sys.start] at h

theorem Good.append {y : Sys S R C Q D} {bs : List (Order S R Q D)} (h : Good y bs) : Good y (bs ++ [.empty]) where
  zero := by
    obtain ⟨b, hb, e⟩ := h.zero
    exact ⟨b, by rw [List.getElem?_append_left h.pos]; exact hb, e⟩
  pert := by
    intro N b s e hb hp
    by_cases hl : N + 1 < bs.length
    · rw [List.getElem?_append_left hl] at hb
      exact h.pert N b s e hb hp
    · rw [List.getElem?_append_right (not_lt.mp hl)] at hb
      cases hk : N + 1 - bs.length with
      | zero => rw [hk] at hb; cases hb; cases hp
      | succ k => rw [hk] at hb; cases hb
  reads := by
    intro N b q r hb hp
    by_cases hl : N + 1 < bs.length
    · rw [List.getElem?_append_left hl] at hb
      exact h.reads N b q r hb hp
    · rw [List.getElem?_append_right (not_lt.mp hl)] at hb
      cases hk : N + 1 - bs.length with
      | zero => rw [hk] at hb; cases hb; cases hp
      | succ k => rw [hk] at hb; cases hb

theorem Good.modify_pert {y : Sys S R C Q D} {bs : List (Order S R Q D)} (h : Good y bs) {N : Nat} {p s : S} (hp : iter y N = .ok p)
    (hs : y.iterate p = .ok s) : Good y (bs.modify (N + 1) (fun o => { o with pert := some (s, y.delta p s) })) where
  zero := by
    obtain ⟨b, hb, e⟩ := h.zero
    refine ⟨b, ?_, e⟩
    rw [List.getElem?_modify, hb]
    simp
  pert := by
    intro M b s' e hb hpe
    rw [List.getElem?_modify] at hb
    cases ho : bs[M + 1]? with
    | none => rw [ho] at hb; cases hb
    | some o =>
      rw [ho] at hb
      simp only [Option.map_eq_map, Option.map_some, Option.some.injEq] at hb
      by_cases hM : N + 1 = M + 1
      · rw [if_pos hM] at hb
        subst hb
        cases hpe
        have : N = M := by omega
        exact ⟨p, this ▸ hp, hs, rfl⟩
      · rw [if_neg hM] at hb
        subst hb
        exact h.pert M _ s' e ho hpe
  reads := by
    intro M b q r hb hpe
    rw [List.getElem?_modify] at hb
    cases ho : bs[M + 1]? with
    | none => rw [ho] at hb; cases hb
    | some o =>
      rw [ho] at hb
      simp only [Option.map_eq_map, Option.map_some, Option.some.injEq] at hb
      by_cases hM : N + 1 = M + 1
      · rw [if_pos hM] at hb
        subst hb
        exact h.reads M _ q r ho hpe
      · rw [if_neg hM] at hb
        subst hb
        exact h.reads M _ q r ho hpe

theorem Good.modify_read {y : Sys S R C Q D} {bs : List (Order S R Q D)} (h : Good y bs) {N : Nat} {q : Q} {r : R}
    (hr : ∀ M, N = M + 1 → ∃ p, iter y M = .ok p ∧ y.read q p = .ok r) :
    Good y (bs.modify N (fun o => { o with reads := Dict.set o.reads q r })) where
  zero := by
    obtain ⟨b, hb, e, he⟩ := h.zero
    rw [List.getElem?_modify, hb]
    by_cases hN : N = 0
    · subst hN
      exact ⟨_, rfl, e, he⟩
    · exact ⟨b, by simp [hN], e, he⟩
  pert := by
    intro M b s' e hb hpe
    rw [List.getElem?_modify] at hb
    cases ho : bs[M + 1]? with
    | none => rw [ho] at hb; cases hb
    | some o =>
      rw [ho] at hb
      simp only [Option.map_eq_map, Option.map_some, Option.some.injEq] at hb
      by_cases hM : N = M + 1
      · rw [if_pos hM] at hb
        subst hb
        exact h.pert M _ s' e ho hpe
      · rw [if_neg hM] at hb
        subst hb
        exact h.pert M _ s' e ho hpe
  reads := by
    intro M b q' r' hb hpe
    rw [List.getElem?_modify] at hb
    cases ho : bs[M + 1]? with
    | none => rw [ho] at hb; cases hb
    | some o =>
      rw [ho] at hb
      simp only [Option.map_eq_map, Option.map_some, Option.some.injEq] at hb
      by_cases hM : N = M + 1
      · rw [if_pos hM] at hb
        subst hb
        rw [show (Dict.get? (Dict.set o.reads q r) q') = _ from Dict.get?_set _ _ _ _] at hpe
        by_cases hq : q = q'
        · rw [if_pos hq] at hpe
          cases hpe
          exact hq ▸ hr M hM
        · rw [if_neg hq] at hpe
          exact h.reads M _ q' r' ho hpe
      · rw [if_neg hM] at hb
        subst hb
        exact h.reads M _ q' r' ho hpe

/-- What is kept of the orders stored. -/
structure Keeps (bs bs' : List (Order S R Q D)) : Prop where
  length : bs'.length = bs.length
  reads : ∀ (N : Nat) (q : Q), (bs'[N]?).bind (fun o : Order S R Q D => Dict.get? o.reads q) =
    (bs[N]?).bind (fun o : Order S R Q D => Dict.get? o.reads q)
  pert : ∀ (N : Nat) (b : Order S R Q D), bs[N]? = some b → b.pert.isSome → bs'[N]? = some b

theorem Keeps.refl (bs : List (Order S R Q D)) : Keeps bs bs := ⟨rfl, fun _ _ => rfl, fun _ _ h _ => h⟩

theorem iterate_with_spec {y : Sys S R C Q D} {prev} {N : Nat} {bs bs' : List (Order S R Q D)} {b : S × D × Bool}
    (hprev : ∀ p bs1, prev bs = .ok (p, bs1) → Good y bs1 ∧ Keeps bs bs1 ∧ iter y N = .ok p.1)
    (hn : ∀ o, bs[N + 1]? = some o → o.pert = none)
    (hr : iterate_with y prev (N + 1) bs = .ok (b, bs')) :
    Good y bs' ∧ Keeps bs bs' ∧ (∃ p, iter y N = .ok p ∧ y.iterate p = .ok b.1 ∧ b.2 = y.delta p b.1) ∧
      (N + 1 < bs.length → ∃ o, bs'[N + 1]? = some o ∧ o.pert = some b) := by
  unfold iterate_with at hr
  obtain ⟨⟨p, bs1⟩, h1, hr⟩ := bind_ok_inv hr
  obtain ⟨s, h2, hr⟩ := bind_ok_inv hr
  cases hr
  obtain ⟨g, k, hp⟩ := hprev p bs1 h1
  refine ⟨g.modify_pert hp h2, ⟨?_, ?_, ?_⟩, ⟨p.1, hp, h2, rfl⟩, ?_⟩
  · rw [List.length_modify, k.length]
  · intro M q
    rw [← k.reads M q, List.getElem?_modify]
    cases bs1[M]? with
    | none => rfl
    | some o => simp only [Option.map_some, Option.bind_some]; split_ifs <;> rfl
  · intro M o ho hs
    have h3 := k.pert M o ho hs
    rw [List.getElem?_modify, h3]
    by_cases hM : N + 1 = M
    · subst hM
      rw [hn o ho] at hs
      cases hs
    · simp [hM]
  · intro hl
    have hl' : N + 1 < bs1.length := by rw [k.length]; exact hl
    refine ⟨{ bs1[N + 1] with pert := some (s, y.delta p.1 s) }, ?_, rfl⟩
    rw [List.getElem?_modify, List.getElem?_eq_getElem hl']
    simp

theorem pert_spec {y : Sys S R C Q D} : ∀ {N : Nat} {bs bs' : List (Order S R Q D)} {b : S × D × Bool}, Good y bs →
    pert y N bs = .ok (b, bs') → Good y bs' ∧ Keeps bs bs' ∧ iter y N = .ok b.1 := by
  intro N
  induction N with
  | zero =>
    intro bs bs' b h hr
    obtain ⟨o, ho, e, he⟩ := h.zero
    unfold pert at hr
    rw [ho, Option.bind_some, he] at hr
    cases hr
    exact ⟨h, .refl _, rfl⟩
  | succ N ih =>
    intro bs bs' b h hr
    unfold pert at hr
    cases ho : bs[N + 1]? with
    | none => rw [ho] at hr; cases hr
    | some o =>
      rw [ho] at hr
      cases hp : o.pert with
      | some b' =>
        simp only [hp] at hr
        cases hr
        obtain ⟨p, h1, h2, _⟩ := h.pert N o b.1 b.2 ho hp
        exact ⟨h, .refl _, iter_succ h1 h2⟩
      | none =>
        simp only [hp] at hr
        obtain ⟨g, k, ⟨p, h1, h2, _⟩, _⟩ := iterate_with_spec (fun p bs1 hh => ih h hh) (fun o' h' => by
          rw [ho] at h'; cases h'; exact hp) hr
        exact ⟨g, k, iter_succ h1 h2⟩

/-- An order that has a dictionary and whose iterate exists is found. -/
theorem pert_ok {y : Sys S R C Q D} : ∀ {N : Nat} {bs : List (Order S R Q D)} {s : S}, Good y bs → N < bs.length → iter y N = .ok s →
    ∃ e bs', pert y N bs = .ok ((s, e), bs') := by
  intro N
  induction N with
  | zero =>
    intro bs s h _ hs
    obtain ⟨o, ho, e, he⟩ := h.zero
    cases hs
    refine ⟨e, bs, ?_⟩
    unfold pert
    rw [ho, Option.bind_some, he]
  | succ N ih =>
    intro bs s h hl hs
    have hs0 := hs
    obtain ⟨p, h1, h2⟩ := bind_ok_inv hs
    unfold pert
    rw [List.getElem?_eq_getElem hl]
    cases hp : (bs[N + 1]).pert with
    | some b =>
      obtain ⟨p', h1', h2', _⟩ := h.pert N _ b.1 b.2 (List.getElem?_eq_getElem hl) hp
      rw [h1] at h1'
      cases h1'
      rw [h2] at h2'
      injection h2' with h2'
      refine ⟨b.2, bs, ?_⟩
      simp only [hp, h2']
    | none =>
      obtain ⟨e, bs', h3⟩ := ih h (by omega) h1
      simp only [hp]
      unfold iterate_with
      rw [h3, bind_ok]
      show ∃ e bs'', (y.iterate p >>= _) = _
      rw [h2, bind_ok]
      exact ⟨_, _, rfl⟩

theorem last_append (bs : List (Order S R Q D)) : (bs ++ [(.empty : Order S R Q D)])[bs.length]? = some .empty := by simp

theorem iterate_last {y : Sys S R C Q D} {bs bs' : List (Order S R Q D)} {b : S × D × Bool} (h : Good y bs)
    (hr : perturbation_iterate y ((bs ++ [(.empty : Order S R Q D)]).length - 1) (bs ++ [.empty]) = .ok (b, bs')) :
    Good y bs' ∧ Keeps (bs ++ [.empty]) bs' ∧ (∃ o, bs'[bs.length]? = some o ∧ o.pert = some b) ∧
      ∃ p, iter y (bs.length - 1) = .ok p ∧ y.iterate p = .ok b.1 ∧ b.2 = y.delta p b.1 := by
  obtain ⟨n, hn⟩ : ∃ n, bs.length = n + 1 := ⟨bs.length - 1, by have := h.pos; omega⟩
  have e : (bs ++ [(.empty : Order S R Q D)]).length - 1 = n + 1 := by simp [hn]
  rw [e] at hr
  unfold perturbation_iterate at hr
  obtain ⟨g, k, hp, ho⟩ := iterate_with_spec (N := n) (fun p bs1 hh => pert_spec h.append hh) (fun o ho => by
    rw [← hn, last_append] at ho
    cases ho
    rfl) hr
  rw [hn]
  exact ⟨g, k, ho (by simp [hn]), hp⟩

theorem loop_good {y : Sys S R C Q D} {stop : Bool} : ∀ {k : Nat} {bs bs' : List (Order S R Q D)}, Good y bs → loop y stop k bs = .ok bs' →
    Good y bs' := by
  intro k
  induction k with
  | zero => intro bs bs' h hr; cases hr; exact h
  | succ k ih =>
    intro bs bs' h hr
    unfold loop at hr
    obtain ⟨⟨b, bs1⟩, h1, hr⟩ := bind_ok_inv hr
    obtain ⟨g, -⟩ := iterate_last h h1
    dsimp only at hr
    split_ifs at hr
    · cases hr; exact g
    · exact ih g hr

theorem solve_good {y : Sys S R C Q D} {order : Option Nat} {bs bs' : List (Order S R Q D)} (h : Good y bs) (hr : solve y order bs = .ok bs') :
    Good y bs' := by
  unfold solve at hr
  split at hr
  · obtain ⟨bs1, h1, hr⟩ := bind_ok_inv hr
    cases hr
    exact (loop_good h h1).append
  · obtain ⟨bs1, h1, hr⟩ := bind_ok_inv hr
    cases hr
    have := loop_good h h1
    split_ifs
    · exact this.append
    · exact this

theorem find_good {y : Sys S R C Q D} {N : Option Int} {n : Nat} {bs bs' : List (Order S R Q D)} (h : Good y bs)
    (hr : find_order y N bs = .ok (n, bs')) : Good y bs' ∧ n < bs'.length ∧
      (∀ i, N = some i → 0 ≤ i → i = n) := by
  unfold find_order at hr
  cases N with
  | none =>
    dsimp only at hr
    split_ifs at hr
    · obtain ⟨bs1, h1, hr⟩ := bind_ok_inv hr
      cases hr
      have := solve_good h h1
      exact ⟨this, by have := this.pos; omega, by intro i hi; cases hi⟩
    · cases hr
      exact ⟨h, by have := h.pos; omega, by intro i hi; cases hi⟩
  | some i =>
    dsimp only at hr
    set M : Int := if i < 0 then (bs.length : Int) + i else i with hM
    have hi : ∀ j, some i = some j → 0 ≤ j → j = M := by
      intro j hj h0
      cases hj
      rw [hM, if_neg (not_lt.mpr h0)]
    by_cases h0 : M < 0
    · rw [if_pos h0] at hr; cases hr
    · rw [if_neg h0] at hr
      by_cases h1 : M < bs.length
      · rw [if_pos h1] at hr
        cases hr
        exact ⟨h, by omega, fun j hj h2 => by rw [hi j hj h2]; omega⟩
      · rw [if_neg h1] at hr
        obtain ⟨bs1, h2, hr⟩ := bind_ok_inv hr
        by_cases h3 : M < bs1.length
        · rw [if_pos h3] at hr
          cases hr
          exact ⟨solve_good h h2, by omega, fun j hj h4 => by rw [hi j hj h4]; omega⟩
        · rw [if_neg h3] at hr; cases hr

theorem driven_pert_spec {y : Sys S R C Q D} {N : Option Int} {s : S} {bs bs' : List (Order S R Q D)} (h : Good y bs)
    (hr : driven_pert y N bs = .ok (s, bs')) : Good y bs' ∧ ∀ n : Nat, N = some (n : Int) → iter y n = .ok s := by
  unfold driven_pert at hr
  obtain ⟨⟨n, bs1⟩, h1, hr⟩ := bind_ok_inv hr
  obtain ⟨⟨b, bs2⟩, h2, hr⟩ := bind_ok_inv hr
  cases hr
  obtain ⟨g1, hl, hi⟩ := find_good h h1
  obtain ⟨g2, k, hp⟩ := pert_spec g1 h2
  refine ⟨g2, fun m hm => ?_⟩
  have := hi _ hm (Int.natCast_nonneg m)
  have : m = n := by exact_mod_cast this
  rw [this]
  exact hp

/-- The whole book. -/
structure Right (y : Sys S R C Q D) (b : Book S R C Q D) : Prop where
  orders : Good y b.orders
  cs : ∀ (N : Nat) d q c, Dict.get? b.cs ((N : Int) + 1) = some d → Dict.get? d q = some c → ∃ p, iter y N = .ok p ∧ y.couple q p = .ok c

theorem Right.start (y : Sys S R C Q D) : Right y y.start := ⟨.start y, by intro N d q c h; cases h⟩

theorem driven_spec {y : Sys S R C Q D} {q : Q} {N : Option Int} {r : R} {b b' : Book S R C Q D} (h : Right y b)
    (hr : driven y q N b = .ok (r, b')) : Right y b' ∧
      ∀ n : Nat, N = some ((n : Int) + 1) → ∃ p, iter y n = .ok p ∧ y.read q p = .ok r := by
  unfold driven at hr
  obtain ⟨⟨n, bs1⟩, h1, hr⟩ := bind_ok_inv hr
  obtain ⟨g1, hl, hi⟩ := find_good h.orders h1
  dsimp only at hr
  cases ho : (bs1[n]?).bind (fun o => Dict.get? o.reads q) with
  | some r' =>
    rw [ho] at hr
    cases hr
    refine ⟨⟨g1, h.cs⟩, fun m hm => ?_⟩
    have := hi _ hm (by omega)
    have hn : n = m + 1 := by omega
    subst hn
    rw [List.getElem?_eq_getElem hl] at ho
    exact g1.reads m _ q r (List.getElem?_eq_getElem hl) ho
  | none =>
    rw [ho] at hr
    obtain ⟨⟨p, bs2⟩, h2, hr⟩ := bind_ok_inv hr
    obtain ⟨r', h3, hr⟩ := bind_ok_inv hr
    cases hr
    obtain ⟨g2, hp⟩ := driven_pert_spec g1 h2
    have key : ∀ M, n = M + 1 → ∃ p, iter y M = .ok p ∧ y.read q p = .ok r := by
      intro M hM
      exact ⟨p, hp M (by rw [hM]; push_cast; congr 1; ring), h3⟩
    refine ⟨⟨g2.modify_read key, h.cs⟩, fun m hm => ?_⟩
    have := hi _ hm (by omega)
    exact key m (by omega)

theorem coupling_spec {y : Sys S R C Q D} {q : Q × Q} {N : Option Int} {c : C} {b b' : Book S R C Q D} (h : Right y b)
    (hr : coupling y q N b = .ok (c, b')) : Right y b' ∧
      ∀ n : Nat, N = some ((n : Int) + 1) → ∃ p, iter y n = .ok p ∧ y.couple q p = .ok c := by
  have aux : ∀ (M : Int) (bs1 : List (Order S R Q D)), Good y bs1 →
      (match (Dict.get? b.cs M).bind (fun d => Dict.get? d q) with
        | some c => pure (c, { b with orders := bs1 })
        | none => do
          let (p, bs) ← driven_pert y (some (M - 1)) bs1
          let c ← y.couple q p
          pure (c, { orders := bs, cs := Dict.set b.cs M (Dict.set ((Dict.get? b.cs M).getD []) q c) }) :
          Except Err (C × Book S R C Q D)) = .ok (c, b') →
      Right y b' ∧ ∀ n : Nat, M = (n : Int) + 1 → ∃ p, iter y n = .ok p ∧ y.couple q p = .ok c := by
    intro M bs1 g hr
    cases ho : (Dict.get? b.cs M).bind (fun d => Dict.get? d q) with
    | some c' =>
      rw [ho] at hr
      cases hr
      refine ⟨⟨g, h.cs⟩, fun n hn => ?_⟩
      cases hd : Dict.get? b.cs M with
      | none => rw [hd] at ho; cases ho
      | some d =>
        rw [hd] at ho
        rw [hn] at hd
        exact h.cs n d q c hd ho
    | none =>
      rw [ho] at hr
      obtain ⟨⟨p, bs2⟩, h2, hr⟩ := bind_ok_inv hr
      obtain ⟨c', h3, hr⟩ := bind_ok_inv hr
      cases hr
      obtain ⟨g2, hp⟩ := driven_pert_spec g h2
      have key : ∀ n : Nat, M = (n : Int) + 1 → ∃ p, iter y n = .ok p ∧ y.couple q p = .ok c :=
        fun n hn => ⟨p, hp n (by rw [hn]; congr 1; ring), h3⟩
      refine ⟨⟨g2, ?_⟩, key⟩
      intro n d q' c' hd hc
      dsimp only at hd
      rw [Dict.get?_set] at hd
      by_cases hM : M = (n : Int) + 1
      · rw [if_pos hM] at hd
        cases hd
        rw [Dict.get?_set] at hc
        by_cases hq : q = q'
        · rw [if_pos hq] at hc
          cases hc
          exact hq ▸ key n hM
        · rw [if_neg hq] at hc
          cases hd' : Dict.get? b.cs M with
          | none => rw [hd'] at hc; cases hc
          | some d' =>
            rw [hd'] at hc
            exact h.cs n d' q' c' (hM ▸ hd') hc
      · rw [if_neg hM] at hd
        exact h.cs n d q' c' hd hc
  unfold coupling at hr
  cases N with
  | none =>
    obtain ⟨⟨n, bs1⟩, h2, hr⟩ := bind_ok_inv hr
    obtain ⟨g1, hl, hi⟩ := find_good h.orders h2
    exact ⟨(aux _ _ g1 hr).1, by intro n hn; cases hn⟩
  | some i =>
    obtain ⟨⟨M, bs1⟩, h1, hr⟩ := bind_ok_inv hr
    cases h1
    obtain ⟨a1, a2⟩ := aux _ _ h.orders hr
    refine ⟨a1, fun n hn => ?_⟩
    cases hn
    exact a2 n (by rw [if_neg (by omega)])

theorem run_right {y : Sys S R C Q D} {c : Call Q} {b b' : Book S R C Q D} (h : Right y b) (hr : c.run y b = .ok b') : Right y b' := by
  cases c with
  | solve order =>
    obtain ⟨bs, h1, hr⟩ := bind_ok_inv hr
    cases hr
    exact ⟨solve_good h.orders h1, h.cs⟩
  | pert N =>
    obtain ⟨⟨s, bs⟩, h1, hr⟩ := bind_ok_inv hr
    cases hr
    exact ⟨(driven_pert_spec h.orders h1).1, h.cs⟩
  | driven q N =>
    obtain ⟨⟨s, bs⟩, h1, hr⟩ := bind_ok_inv hr
    cases hr
    exact (driven_spec h h1).1
  | coupling q N =>
    obtain ⟨⟨s, bs⟩, h1, hr⟩ := bind_ok_inv hr
    cases hr
    exact (coupling_spec h h1).1

end Solve
