import Verif.Queue.Spec

universe u

namespace Queue
open Py
variable {α : Type u}

/-! ## Contents (no assumption on the order) -/

/-- Moving the value at `j` into the hole at `i` and the new item into `j` is a transposition. -/
theorem swap_perm (h : List α) (i j : Nat) (x v : α) (hi : i < h.length) (hij : i ≠ j)
    (hv : h[j]? = some v) : ((h.set i v).set j x).Perm (h.set i x) := by
  obtain ⟨hj, hjv⟩ := List.getElem?_eq_some_iff.1 hv
  have := List.set_set_perm (as := h.set i x) (i := i) (j := j) (by simpa using hi) (by simpa using hj)
  rw [List.getElem_set_self, List.set_set] at this
  rw [List.getElem_set_ne hij, hjv] at this
  exact this

variable (lt : α → α → Bool)

theorem siftdownLoop_perm (x : α) (s : Nat) : ∀ (pos : Nat) (h : List α), pos < h.length →
    (siftdownLoop lt x s h pos).Perm (h.set pos x) := by
  intro pos
  induction pos using Nat.strong_induction_on with
  | _ pos ih =>
    intro h hpos
    unfold siftdownLoop
    by_cases hp : pos > s
    · rw [dif_pos hp]
      dsimp only
      cases hv : h[(pos - 1) / 2]? with
      | none => exact List.Perm.refl _
      | some parent =>
        dsimp only
        split
        · refine (ih _ (by omega) _ (by simp; omega)).trans ?_
          exact swap_perm h pos _ x parent hpos (by omega) hv
        · exact List.Perm.refl _
    · rw [dif_neg hp]

theorem siftdown_perm (h : List α) (s pos : Nat) : (siftdown lt h s pos).Perm h := by
  unfold siftdown
  cases hv : h[pos]? with
  | none => exact List.Perm.refl _
  | some x =>
    obtain ⟨hp, hx⟩ := List.getElem?_eq_some_iff.1 hv
    refine (siftdownLoop_perm lt x s pos h hp).trans ?_
    rw [← hx, List.set_getElem_self]

theorem siftupLoop_perm (x : α) : ∀ (n pos : Nat) (h : List α), h.length - pos = n → pos < h.length →
    ((siftupLoop lt h pos).1.set (siftupLoop lt h pos).2 x).Perm (h.set pos x) ∧
    (siftupLoop lt h pos).1.length = h.length ∧ (siftupLoop lt h pos).2 < h.length := by
  intro n
  induction n using Nat.strong_induction_on with
  | _ n ih =>
    intro pos h hn hpos
    unfold siftupLoop
    dsimp only
    by_cases hp : 2 * pos + 1 < h.length
    · rw [dif_pos hp]
      have hc := pickChild_ge lt h (2 * pos + 1)
      cases hv : h[pickChild lt h (2 * pos + 1)]? with
      | none => exact ⟨List.Perm.refl _, rfl, hpos⟩
      | some v =>
        dsimp only
        obtain ⟨hlt, _⟩ := List.getElem?_eq_some_iff.1 hv
        have := ih (h.length - pickChild lt h (2 * pos + 1)) (by omega) (pickChild lt h (2 * pos + 1))
          (h.set pos v) (by simp) (by simpa using hlt)
        refine ⟨this.1.trans ?_, by simpa using this.2.1, by simpa using this.2.2⟩
        exact swap_perm h pos _ x v hpos (by omega) hv
    · rw [dif_neg hp]
      exact ⟨List.Perm.refl _, rfl, hpos⟩

theorem siftup_perm (h : List α) (pos : Nat) : (siftup lt h pos).Perm h := by
  unfold siftup
  cases hv : h[pos]? with
  | none => exact List.Perm.refl _
  | some x =>
    obtain ⟨hp, hx⟩ := List.getElem?_eq_some_iff.1 hv
    dsimp only
    refine (siftdown_perm lt _ _ _).trans ?_
    refine (siftupLoop_perm lt x _ pos h rfl hp).1.trans ?_
    rw [← hx, List.set_getElem_self]

theorem heapifyLoop_perm (n : Nat) : ∀ h : List α, (heapifyLoop lt n h).Perm h := by
  induction n with
  | zero => intro h; exact List.Perm.refl _
  | succ n ih => intro h; exact (ih _).trans (siftup_perm lt h n)

theorem heapify_perm (h : List α) : (heapify lt h).Perm h := heapifyLoop_perm lt _ h

theorem heappush_perm (h : List α) (x : α) : (heappush lt h x).Perm (x :: h) := by
  refine (siftdown_perm lt _ _ _).trans ?_
  exact List.perm_append_singleton x h

theorem dropLast_getLast_perm {h : List α} {x : α} (hx : h.getLast? = some x) :
    (x :: h.dropLast).Perm h := by
  obtain ⟨ys, rfl⟩ := List.getLast?_eq_some_iff.1 hx
  simpa using (List.perm_append_singleton x ys).symm

theorem heappop_perm {h : List α} {x : α} {h' : List α} (e : heappop lt h = some (x, h')) :
    (x :: h').Perm h := by
  unfold heappop at e
  cases hl : h.getLast? with
  | none => rw [hl] at e; simp at e
  | some l =>
    rw [hl] at e
    dsimp only at e
    have hp := dropLast_getLast_perm hl
    cases hd : h.dropLast with
    | nil =>
      rw [hd] at e hp
      simp only [Option.some.injEq, Prod.mk.injEq] at e
      rw [← e.1, ← e.2]; exact hp
    | cons r rest =>
      rw [hd] at e hp
      simp only [Option.some.injEq, Prod.mk.injEq] at e
      rw [← e.1, ← e.2]
      refine ((siftup_perm lt _ 0).cons r).trans ?_
      exact (List.Perm.swap l r rest).trans hp

theorem heappop_none {h : List α} : heappop lt h = none ↔ h = [] := by
  unfold heappop
  cases hl : h.getLast? with
  | none => simpa using List.getLast?_eq_none_iff.1 hl
  | some l =>
    have hne : h ≠ [] := by rintro rfl; simp at hl
    dsimp only
    cases hd : h.dropLast <;> simp [hne]

theorem heappushpop_perm (h : List α) (x : α) :
    ((heappushpop lt h x).1 :: (heappushpop lt h x).2).Perm (x :: h) := by
  unfold heappushpop
  cases h with
  | nil => exact List.Perm.refl _
  | cons t rest =>
    dsimp only
    split
    · exact ((siftup_perm lt _ 0).cons t).trans (List.Perm.swap x t rest)
    · exact List.Perm.refl _

/-! ## Heap order -/

/-- `V[p] ≤ V[c]` whenever both positions exist. -/
def Rel (V : List α) (p c : Nat) : Prop := ∀ a b, V[p]? = some a → V[c]? = some b → lt b a = false

def Child (p c : Nat) : Prop := c = 2 * p + 1 ∨ c = 2 * p + 2

/-- heap order between every position from `s` on and its children. -/
def Heap (s : Nat) (V : List α) : Prop := ∀ p c, s ≤ p → Child p c → Rel lt V p c

/-- `pos` lies in the subtree rooted at `s`. -/
inductive Desc (s : Nat) : Nat → Prop
  | root : Desc s s
  | child {p c} : Desc s p → Child p c → Desc s c

theorem Desc.ge {s pos : Nat} (h : Desc s pos) : s ≤ pos := by
  induction h with
  | root => exact Nat.le_refl _
  | child _ hc ih => rcases hc with h | h <;> omega

theorem Child.parent {p c : Nat} (h : Child p c) : (c - 1) / 2 = p ∧ p < c := by
  rcases h with h | h <;> omega

theorem child_parent {c : Nat} (h : 0 < c) : Child ((c - 1) / 2) c := by
  unfold Child; omega

theorem Desc.parent {s pos : Nat} (h : Desc s pos) (hne : s < pos) : Desc s ((pos - 1) / 2) := by
  cases h with
  | root => omega
  | child hd hc => rw [hc.parent.1]; exact hd

variable {lt}

theorem siftdownLoop_heap (O : StrictWeak lt) (x : α) (s : Nat) : ∀ (pos : Nat) (h : List α),
    pos < h.length → Desc s pos →
    (∀ p c, s ≤ p → Child p c → c ≠ pos → Rel lt (h.set pos x) p c) →
    (∀ p c, s ≤ p → Child p pos → Child pos c → Rel lt (h.set pos x) p c) →
    Heap lt s (siftdownLoop lt x s h pos) := by
  intro pos
  induction pos using Nat.strong_induction_on with
  | _ pos ih =>
    intro h hpos hd h1 h2
    unfold siftdownLoop
    by_cases hp : pos > s
    · rw [dif_pos hp]
      dsimp only
      have hpp : (pos - 1) / 2 < h.length := by omega
      have hppd := hd.parent hp
      have hcpp : Child ((pos - 1) / 2) pos := child_parent (by omega)
      have hsp := hppd.ge
      cases hv : h[(pos - 1) / 2]? with
      | none => rw [List.getElem?_eq_none_iff] at hv; omega
      | some parent =>
        dsimp only
        by_cases hlt : lt x parent = true
        · rw [if_pos hlt]
          have Vpp : (h.set pos x)[(pos - 1) / 2]? = some parent := by
            rw [List.getElem?_set, if_neg (by omega)]; exact hv
          -- entries of the next virtual list
          have V1 : ((h.set pos parent).set ((pos - 1) / 2) x)[(pos - 1) / 2]? = some x := by
            rw [List.getElem?_set, if_pos rfl, if_pos (by simpa using hpp)]
          have V2 : ((h.set pos parent).set ((pos - 1) / 2) x)[pos]? = some parent := by
            rw [List.getElem?_set, if_neg (by omega), List.getElem?_set, if_pos rfl, if_pos hpos]
          have V3 : ∀ i, i ≠ pos → i ≠ (pos - 1) / 2 →
              ((h.set pos parent).set ((pos - 1) / 2) x)[i]? = (h.set pos x)[i]? := by
            intro i hi hi'
            rw [List.getElem?_set, if_neg (Ne.symm hi'), List.getElem?_set, if_neg (Ne.symm hi),
              List.getElem?_set, if_neg (Ne.symm hi)]
          refine ih _ (by omega) _ (by simpa using hpp) hppd ?_ ?_
          · intro p c hsp' hc hcne a b ha hb
            by_cases hppe : p = (pos - 1) / 2
            · subst hppe
              rw [V1] at ha
              injection ha with ha
              subst ha
              by_cases hce : c = pos
              · subst hce
                rw [V2] at hb
                injection hb with hb
                subst hb
                exact O.asymm _ _ hlt
              · rw [V3 c hce (by rcases hc with hc | hc <;> omega)] at hb
                exact O.ntrans x parent b (O.asymm _ _ hlt) (h1 _ c hsp hc hce parent b Vpp hb)
            · by_cases hpe : p = pos
              · subst hpe
                rw [V2] at ha
                injection ha with ha
                subst ha
                have hcc := hc.parent
                rw [V3 c (by omega) (by omega)] at hb
                exact h2 _ c hsp hcpp hc parent b Vpp hb
              · have hce : c ≠ pos := by
                  rintro rfl
                  exact hppe hc.parent.1.symm
                rw [V3 p hpe hppe] at ha
                rw [V3 c hce hcne] at hb
                exact h1 p c hsp' hc hce a b ha hb
          · intro p c hsp' hcp hcc a b ha hb
            have e1 := hcp.parent
            have e2 := hcc.parent
            have hpne : p ≠ pos := by omega
            have hpne' : p ≠ (pos - 1) / 2 := by omega
            rw [V3 p hpne hpne'] at ha
            have hA : lt parent a = false := h1 p _ hsp' hcp (by omega) a parent ha Vpp
            by_cases hce : c = pos
            · subst hce
              rw [V2] at hb
              injection hb with hb
              subst hb
              exact hA
            · rw [V3 c hce (by omega)] at hb
              exact O.ntrans a parent b hA (h1 _ c hsp hcc hce parent b Vpp hb)
        · rw [if_neg hlt]
          intro p c hsp' hc
          by_cases hce : c = pos
          · subst hce
            intro a b ha hb
            rw [List.getElem?_set, if_pos rfl, if_pos hpos] at hb
            injection hb with hb
            have := hc.parent
            rw [List.getElem?_set, if_neg (by omega), ← this.1, hv] at ha
            injection ha with ha
            rw [← ha, ← hb]
            simpa using hlt
          · exact h1 p c hsp' hc hce
    · rw [dif_neg hp]
      intro p c hsp hc
      have := hd.ge
      have hcp := hc.parent
      exact h1 p c hsp hc (by omega)

theorem siftdown_heap (O : StrictWeak lt) (s : Nat) (pos : Nat) (h : List α)
    (hpos : pos < h.length) (hd : Desc s pos)
    (h1 : ∀ p c, s ≤ p → Child p c → c ≠ pos → Rel lt h p c)
    (h2 : ∀ p c, s ≤ p → Child p pos → Child pos c → Rel lt h p c) :
    Heap lt s (siftdown lt h s pos) := by
  unfold siftdown
  rw [List.getElem?_eq_getElem hpos]
  dsimp only
  apply siftdownLoop_heap O _ s pos h hpos hd
  · simpa only [List.set_getElem_self] using h1
  · simpa only [List.set_getElem_self] using h2

theorem pickChild_spec (O : StrictWeak lt) (h : List α) (pos : Nat) (hp : 2 * pos + 1 < h.length) :
    Child pos (pickChild lt h (2 * pos + 1)) ∧ pickChild lt h (2 * pos + 1) < h.length ∧
    ∀ c, Child pos c → ∀ a b, h[pickChild lt h (2 * pos + 1)]? = some a → h[c]? = some b → lt b a = false := by
  have irr : ∀ a, lt a a = false := by
    intro a
    by_contra hh
    have hh : lt a a = true := by simpa using hh
    have := O.asymm _ _ hh
    rw [hh] at this
    simp at this
  unfold pickChild
  rw [List.getElem?_eq_getElem hp]
  cases hr : h[2 * pos + 1 + 1]? with
  | none =>
    dsimp only
    refine ⟨Or.inl rfl, hp, ?_⟩
    rintro c (rfl | rfl) a b ha hb
    · rw [ha] at hb
      injection hb with hb
      rw [hb]; exact irr _
    · rw [hr] at hb; simp at hb
  | some r =>
    obtain ⟨hrl, _⟩ := List.getElem?_eq_some_iff.1 hr
    dsimp only
    by_cases hlt : lt h[2 * pos + 1] r = true
    · rw [if_pos hlt]
      refine ⟨Or.inl rfl, hp, ?_⟩
      rintro c (rfl | rfl) a b ha hb
      · rw [ha] at hb
        injection hb with hb
        rw [hb]; exact irr _
      · rw [hr] at hb
        injection hb with hb
        rw [List.getElem?_eq_getElem hp] at ha
        injection ha with ha
        rw [← ha, ← hb]
        exact O.asymm _ _ hlt
    · rw [if_neg hlt]
      refine ⟨Or.inr rfl, hrl, ?_⟩
      rintro c (rfl | rfl) a b ha hb
      · rw [hr] at ha
        injection ha with ha
        rw [List.getElem?_eq_getElem hp] at hb
        injection hb with hb
        rw [← ha, ← hb]
        simpa using hlt
      · rw [ha] at hb
        injection hb with hb
        rw [hb]; exact irr _

theorem siftupLoop_heap (O : StrictWeak lt) (x : α) (s : Nat) : ∀ (n pos : Nat) (h : List α),
    h.length - pos = n → pos < h.length → Desc s pos →
    (∀ p c, s ≤ p → Child p c → p ≠ pos → c ≠ pos → Rel lt (h.set pos x) p c) →
    (∀ p c, s ≤ p → Child p pos → Child pos c → Rel lt (h.set pos x) p c) →
    let r := siftupLoop lt h pos
    Desc s r.2 ∧
    (∀ p c, s ≤ p → Child p c → c ≠ r.2 → Rel lt (r.1.set r.2 x) p c) ∧
    (∀ p c, s ≤ p → Child p r.2 → Child r.2 c → Rel lt (r.1.set r.2 x) p c) := by
  intro n
  induction n using Nat.strong_induction_on with
  | _ n ih =>
    intro pos h hn hpos hd h1 h2
    unfold siftupLoop
    dsimp only
    by_cases hp : 2 * pos + 1 < h.length
    · rw [dif_pos hp]
      obtain ⟨hcm, hml, hmin⟩ := pickChild_spec O h pos hp
      generalize hm : pickChild lt h (2 * pos + 1) = m at *
      rw [List.getElem?_eq_getElem hml]
      dsimp only
      have hpm := hcm.parent
      have hs := hd.ge
      have V1 : ((h.set pos h[m]).set m x)[m]? = some x := by
        rw [List.getElem?_set, if_pos rfl, if_pos (by simpa using hml)]
      have V2 : ((h.set pos h[m]).set m x)[pos]? = some h[m] := by
        rw [List.getElem?_set, if_neg (by omega), List.getElem?_set, if_pos rfl, if_pos hpos]
      have V3 : ∀ i, i ≠ pos → i ≠ m → ((h.set pos h[m]).set m x)[i]? = (h.set pos x)[i]? := by
        intro i hi hi'
        rw [List.getElem?_set, if_neg (Ne.symm hi'), List.getElem?_set, if_neg (Ne.symm hi),
          List.getElem?_set, if_neg (Ne.symm hi)]
      have V4 : ∀ i, i ≠ pos → (h.set pos x)[i]? = h[i]? := by
        intro i hi
        rw [List.getElem?_set, if_neg (Ne.symm hi)]
      have Vm : (h.set pos x)[m]? = some h[m] := by
        rw [V4 m (by omega), List.getElem?_eq_getElem hml]
      apply ih (h.length - m) (by omega) m (h.set pos h[m]) (by simp) (by simpa using hml) (hd.child hcm)
      · intro p c hsp hc hpne hcne a b ha hb
        have e := hc.parent
        by_cases hpe : p = pos
        · subst hpe
          rw [V2] at ha
          injection ha with ha
          rw [V3 c (by omega) hcne, V4 c (by omega)] at hb
          exact hmin c hc a b (by rw [List.getElem?_eq_getElem hml, ha]) hb
        · by_cases hce : c = pos
          · subst hce
            rw [V2] at hb
            injection hb with hb
            rw [V3 p hpe hpne] at ha
            exact h2 p m hsp hc hcm a b ha (by rw [Vm, hb])
          · rw [V3 p hpe hpne] at ha
            rw [V3 c hce hcne] at hb
            exact h1 p c hsp hc hpe hce a b ha hb
      · intro p c hsp hcp hcc a b ha hb
        have e1 := hcp.parent
        have e2 := hcc.parent
        have hpe : p = pos := by omega
        subst hpe
        rw [V2] at ha
        injection ha with ha
        rw [V3 c (by omega) (by omega)] at hb
        exact h1 m c (by omega) hcc (by omega) (by omega) a b (by rw [Vm, ha]) hb
    · rw [dif_neg hp]
      dsimp only
      refine ⟨hd, ?_, h2⟩
      intro p c hsp hc hcne
      by_cases hpe : p = pos
      · subst hpe
        intro a b ha hb
        obtain ⟨hl, _⟩ := List.getElem?_eq_some_iff.1 hb
        simp only [List.length_set] at hl
        rcases hc with hc | hc <;> omega
      · exact h1 p c hsp hc hpe hcne

theorem siftup_heap (O : StrictWeak lt) (h : List α) (s : Nat) (hs : Heap lt (s + 1) h) :
    Heap lt s (siftup lt h s) := by
  unfold siftup
  cases hv : h[s]? with
  | none =>
    dsimp only
    intro p c hsp hc a b ha hb
    rw [List.getElem?_eq_none_iff] at hv
    obtain ⟨hl, _⟩ := List.getElem?_eq_some_iff.1 ha
    omega
  | some x =>
    dsimp only
    obtain ⟨hpos, hx⟩ := List.getElem?_eq_some_iff.1 hv
    have hset : h.set s x = h := by rw [← hx, List.set_getElem_self]
    have key := siftupLoop_heap O x s _ s h rfl hpos Desc.root
      (by
        intro p c hsp hc hpne _
        rw [hset]
        exact hs p c (by omega) hc)
      (by
        intro p c hsp hcp _
        have := hcp.parent
        omega)
    have hp := siftupLoop_perm lt x _ s h rfl hpos
    exact siftdown_heap O s _ _ (by simp only [List.length_set]; omega) key.1 key.2.1 key.2.2

theorem heapifyLoop_heap (O : StrictWeak lt) (n : Nat) : ∀ h : List α, Heap lt n h →
    Heap lt 0 (heapifyLoop lt n h) := by
  induction n with
  | zero => intro h hh; exact hh
  | succ n ih => intro h hh; exact ih _ (siftup_heap O h n hh)

theorem heapify_heap (O : StrictWeak lt) (h : List α) : Heap lt 0 (heapify lt h) := by
  apply heapifyLoop_heap O
  intro p c hp hc a b ha hb
  obtain ⟨hl, _⟩ := List.getElem?_eq_some_iff.1 hb
  rcases hc with hc | hc <;> omega

theorem heap_head_le (O : StrictWeak lt) {h : List α} (hh : Heap lt 0 h) {x : α} (hx : h[0]? = some x) :
    ∀ (i : Nat) (b : α), h[i]? = some b → lt b x = false := by
  intro i
  induction i using Nat.strong_induction_on with
  | _ i ih =>
    intro b hb
    rcases Nat.eq_zero_or_pos i with h0 | h0
    · subst h0
      rw [hx] at hb
      injection hb with hb
      subst hb
      by_contra hc
      have hc : lt x x = true := by simpa using hc
      have := O.asymm _ _ hc
      rw [hc] at this; simp at this
    · obtain ⟨hl, _⟩ := List.getElem?_eq_some_iff.1 hb
      have hpl : (i - 1) / 2 < h.length := by omega
      have hpe := List.getElem?_eq_getElem hpl
      exact O.ntrans x h[(i-1)/2] b (ih _ (by omega) _ hpe)
        (hh _ i (Nat.zero_le _) (child_parent h0) _ _ hpe hb)

theorem heap_least (O : StrictWeak lt) {x : α} {rest : List α} (hh : Heap lt 0 (x :: rest)) :
    ∀ y ∈ x :: rest, lt y x = false := by
  intro y hy
  obtain ⟨i, hi⟩ := List.getElem?_of_mem hy
  exact heap_head_le O hh (x := x) rfl i y hi

theorem heap_replaceHead {x y : α} {rest : List α} (hh : Heap lt 0 (x :: rest)) : Heap lt 1 (y :: rest) := by
  intro p c hp hc a b ha hb
  have hcp := hc.parent
  have e1 : ∀ i, 1 ≤ i → (y :: rest)[i]? = (x :: rest)[i]? := by
    intro i hi
    obtain ⟨j, rfl⟩ := Nat.exists_eq_add_of_le hi
    rw [Nat.add_comm]; rfl
  rw [e1 p hp] at ha
  rw [e1 c (by omega)] at hb
  exact hh p c (Nat.zero_le _) hc a b ha hb

theorem heap_dropLast {h : List α} (hh : Heap lt 0 h) : Heap lt 0 h.dropLast := by
  intro p c hp hc a b ha hb
  have e : ∀ (i : Nat) (z : α), h.dropLast[i]? = some z → h[i]? = some z := by
    intro i z hz
    rw [List.getElem?_dropLast] at hz
    split at hz
    · exact hz
    · simp at hz
  exact hh p c hp hc a b (e p a ha) (e c b hb)

theorem heappush_heap (O : StrictWeak lt) {h : List α} (hh : Heap lt 0 h) (x : α) :
    Heap lt 0 (heappush lt h x) := by
  have hD : ∀ n, Desc 0 n := by
    intro n
    induction n using Nat.strong_induction_on with
    | _ n ih =>
      rcases Nat.eq_zero_or_pos n with h0 | h0
      · subst h0; exact Desc.root
      · exact (ih ((n - 1) / 2) (by omega)).child (child_parent h0)
  unfold heappush
  refine siftdown_heap O 0 h.length _ (by simp) (hD _) ?_ ?_
  · intro p c _ hc hne a b ha hb
    obtain ⟨hl, _⟩ := List.getElem?_eq_some_iff.1 hb
    have hcp := hc.parent
    simp only [List.length_append, List.length_cons, List.length_nil] at hl
    rw [List.getElem?_append_left (by omega)] at ha hb
    exact hh p c (Nat.zero_le _) hc a b ha hb
  · intro p c _ _ hc a b _ hb
    obtain ⟨hl, _⟩ := List.getElem?_eq_some_iff.1 hb
    simp only [List.length_append, List.length_cons, List.length_nil] at hl
    have := hc.parent
    omega

theorem heappop_heap (O : StrictWeak lt) {h : List α} (hh : Heap lt 0 h) {x : α} {h' : List α}
    (e : heappop lt h = some (x, h')) : Heap lt 0 h' ∧ ∃ rest, h = x :: rest := by
  unfold heappop at e
  cases hl : h.getLast? with
  | none => rw [hl] at e; simp at e
  | some l =>
    rw [hl] at e
    dsimp only at e
    obtain ⟨ys, rfl⟩ := List.getLast?_eq_some_iff.1 hl
    simp only [List.dropLast_concat] at e
    cases ys with
    | nil =>
      simp only [Option.some.injEq, Prod.mk.injEq] at e
      rw [← e.1, ← e.2]
      refine ⟨?_, [], rfl⟩
      intro p c _ _ a b ha
      simp at ha
    | cons r rest =>
      simp only [Option.some.injEq, Prod.mk.injEq] at e
      rw [← e.1, ← e.2]
      refine ⟨siftup_heap O _ 0 ?_, rest ++ [l], rfl⟩
      have := heap_dropLast hh
      simp only [List.dropLast_concat] at this
      exact heap_replaceHead this

end Queue
