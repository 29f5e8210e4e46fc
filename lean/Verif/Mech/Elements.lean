import Verif.Circuit.Elements

/-!
# The mechanical elements obey their laws
-/

set_option linter.unusedSectionVars false

namespace Circuit
open Py Inject

variable {P K F : Type} [DecidableEq P] [DecidableEq K] [Field F] [DecidableEq F]

theorem inject_entry_into {env : Env P K F} {skip : Bool} {p q : P} {c : Except Err F} {cs : List (Coupling P K F)}
    (h : inject_entry env skip p q c = .ok cs) (hn : (env.keys p).Nodup) {k : K} (hk : k ∈ env.keys p) :
    ∃ v, c = .ok v ∧ ∀ x t, total cs x (t, k) = if q = t then v * x (p, k) else 0 := by
  unfold inject_entry at h
  obtain ⟨css, hcss, h1⟩ := bind_ok_inv h
  injection h1 with h1
  subst h1
  cases c with
  | error e =>
    exfalso
    cases hks : env.keys p with
    | nil => rw [hks] at hk; cases hk
    | cons a l =>
      rw [hks, List.mapM_cons] at hcss
      obtain ⟨_, hc, _⟩ := bind_ok_inv hcss
      cases hc
  | ok v =>
    refine ⟨v, rfl, ?_⟩
    by_cases h0 : (skip && decide (v = 0)) = true
    · have : ∀ {ks : List K} {css : List (List (Coupling P K F))},
          ks.mapM (fun k => (Except.ok v : Except Err F) >>= fun c =>
            pure (if (skip && decide (c = 0)) = true then [] else [Coupling.edge (p, k) (q, k) c])) = .ok css →
          css.flatten = [] := by
        intro ks
        induction ks with
        | nil =>
          intro css h
          rw [List.mapM_nil] at h
          injection h with h
          subst h
          rfl
        | cons a ks ih =>
          intro css h
          rw [List.mapM_cons] at h
          obtain ⟨c, hc, h1⟩ := bind_ok_inv h
          obtain ⟨ds, hd, h2⟩ := bind_ok_inv h1
          injection h2 with h2
          subst h2
          injection hc with hc
          rw [if_pos h0] at hc
          subst hc
          rw [List.flatten_cons, ih hd]
          rfl
      intro x t
      rw [this hcss, total_nil]
      have hv : v = 0 := by
        rw [Bool.and_eq_true, decide_eq_true_eq] at h0
        exact h0.2
      rw [hv, zero_mul, ite_self]
    · have : ∀ {ks : List K} {css : List (List (Coupling P K F))},
          ks.mapM (fun k => (Except.ok v : Except Err F) >>= fun c =>
            pure (if (skip && decide (c = 0)) = true then [] else [Coupling.edge (p, k) (q, k) c])) = .ok css →
          ks.mapM (fun k => ((fun _ => .ok v) k : Except Err F).map (fun v => Coupling.edge (p, k) (q, k) v)) =
            .ok css.flatten := by
        intro ks
        induction ks with
        | nil =>
          intro css h
          rw [List.mapM_nil] at h
          injection h with h
          subst h
          rfl
        | cons a ks ih =>
          intro css h
          rw [List.mapM_cons] at h
          obtain ⟨c, hc, h1⟩ := bind_ok_inv h
          obtain ⟨ds, hd, h2⟩ := bind_ok_inv h1
          injection h2 with h2
          subst h2
          injection hc with hc
          rw [if_neg h0] at hc
          subst hc
          rw [List.mapM_cons, ih hd]
          rfl
      obtain ⟨v', hv', hx⟩ := keyed_into (this hcss) hn hk
      injection hv' with hv'
      subst hv'
      exact hx

theorem sum_swap {α β : Type} (l : List α) (m : List β) (f : α → β → F) :
    (l.map (fun a => (m.map (fun b => f a b)).sum)).sum = (m.map (fun b => (l.map (fun a => f a b)).sum)).sum := by
  induction l with
  | nil => simp
  | cons a l ih =>
    simp only [List.map_cons, List.sum_cons, ih]
    rw [← List.sum_map_add]

/-- what a matrix adds to a node -/
theorem matrix_inject_total {env : Env P K F} {skip : Bool} {ps qs : List (Port P)} {M : Arr F}
    {cs : List (Coupling P K F)} (h : matrix_inject env skip ps qs M = .ok cs) (hn : ∀ p, (env.keys p).Nodup) {k : K}
    (hk : ∀ p ∈ ps, k ∈ env.keys p.i) (x : P × K → F) (t : P) :
    total cs x (t, k) = (qs.zipIdx.map (fun q => if q.1.o = t then
      (ps.zipIdx.map (fun p => M.val p.2 q.2 * x (p.1.i, k))).sum else 0)).sum := by
  obtain ⟨h1, h2⟩ := blocks_sum h
  rw [h2, List.map_flatMap, sum_flatMap]
  simp only [List.map_map]
  have e : ∀ p ∈ ps.zipIdx, (qs.zipIdx.map (part x (t, k) ∘ fun q =>
      inject_entry env skip p.1.i q.1.o (M.at p.2 q.2))).sum =
      (qs.zipIdx.map (fun q => if q.1.o = t then M.val p.2 q.2 * x (p.1.i, k) else 0)).sum := by
    intro p hp
    refine congrArg List.sum (List.map_congr_left fun q hq => ?_)
    obtain ⟨e, he⟩ := h1 (inject_entry env skip p.1.i q.1.o (M.at p.2 q.2))
      (List.mem_flatMap.2 ⟨p, hp, List.mem_map.2 ⟨q, hq, rfl⟩⟩)
    have hp' : p.1 ∈ ps := (List.zipIdx_map_fst 0 ps) ▸ List.mem_map_of_mem hp
    obtain ⟨v, hv, hx⟩ := inject_entry_into he (hn _) (hk _ hp')
    dsimp only [Function.comp]
    rw [he]
    dsimp only [part]
    rw [hx]
    unfold Arr.at at hv
    split_ifs at hv
    injection hv with hv
    subst hv
    rfl
  rw [List.map_congr_left e, sum_swap]
  refine congrArg List.sum (List.map_congr_left fun q _ => ?_)
  by_cases hq : q.1.o = t
  · simp only [if_pos hq]
  · simp only [if_neg hq]
    simp

theorem Mob.mobility_eq (env : Env P K F) (k : K) (t : Mob F) : t.mobility env (env.freq k) = t.Stiffness env k := by
  cases t with
  | damper r => simp only [Mob.mobility, Mob.Stiffness]; ring
  | spring c l => cases l <;> simp only [Mob.mobility, Mob.Stiffness]; ring
  | mass m => simp only [Mob.mobility, Mob.Stiffness]; ring

theorem law_zconv {Y1 Y2 Ze a b a' b' : F} (hZe : Ze ≠ 0) (hD : Y1 + Y2 ≠ 0) :
    (b = (Y1 - Y2) / (Y1 + Y2) * a + 2 * Y2 / (Y1 + Y2) * a' ∧ b' = 2 * Y1 / (Y1 + Y2) * a + (Y2 - Y1) / (Y1 + Y2) * a') ↔
    (a + b = a' + b' ∧ Y1 * ((a - b) / Ze) + Y2 * ((a' - b') / Ze) = 0) := by
  rw [mul_div_assoc', mul_div_assoc', ← add_div, div_eq_zero_iff, or_iff_left hZe, div_mul_eq_mul_div,
    div_mul_eq_mul_div, div_mul_eq_mul_div, div_mul_eq_mul_div, ← add_div, ← add_div, eq_div_iff hD, eq_div_iff hD]
  constructor
  · rintro ⟨h1, h2⟩
    refine ⟨?_, ?_⟩
    · apply mul_right_cancel₀ hD
      linear_combination h1 - h2
    · apply mul_right_cancel₀ hD
      linear_combination -Y1 * h1 - Y2 * h2
  · rintro ⟨h1, h2⟩
    exact ⟨by linear_combination Y2 * h1 - h2, by linear_combination -Y1 * h1 - h2⟩

theorem law_lever {d Ze a b c a' b' c' : F} (hZe : Ze ≠ 0) (hD : d ^ 2 + 2 ≠ 0) :
    (a' = 1 / (d ^ 2 + 2) * d ^ 2 * a + (1 / (d ^ 2 + 2) * 2 * b + 1 / (d ^ 2 + 2) * (2 * d) * c) ∧
      b' = 1 / (d ^ 2 + 2) * 2 * a + (1 / (d ^ 2 + 2) * d ^ 2 * b + 1 / (d ^ 2 + 2) * (-2 * d) * c) ∧
      c' = 1 / (d ^ 2 + 2) * (2 * d) * a + (1 / (d ^ 2 + 2) * (-2 * d) * b + 1 / (d ^ 2 + 2) * (-d ^ 2 + 2) * c)) ↔
    (a + a' - (b + b') = d * (c + c') ∧ (a - a') / Ze + (b - b') / Ze = 0 ∧ (c - c') / Ze = -d * ((a - a') / Ze)) := by
  rw [mul_div_assoc', div_left_inj' hZe, ← add_div, div_eq_zero_iff, or_iff_left hZe]
  have hi : 1 / (d ^ 2 + 2) * (d ^ 2 + 2) = 1 := one_div_mul_cancel hD
  generalize 1 / (d ^ 2 + 2) = u at hi
  constructor
  · rintro ⟨rfl, rfl, rfl⟩
    refine ⟨?_, ?_, ?_⟩
    · linear_combination (a - b - d * c) * (-hi)
    · linear_combination -(a + b) * hi
    · linear_combination -(c + d * a) * hi
  · rintro ⟨h1, h2, h3⟩
    have ha : a' = u * (d ^ 2 + 2) * a' := by rw [hi, one_mul]
    have hb : b' = u * (d ^ 2 + 2) * b' := by rw [hi, one_mul]
    have hc : c' = u * (d ^ 2 + 2) * c' := by rw [hi, one_mul]
    refine ⟨?_, ?_, ?_⟩
    · rw [ha]; linear_combination u * h1 - u * h2 - u * d * h3
    · rw [hb]; linear_combination -u * h1 - u * (d ^ 2 + 1) * h2 + u * d * h3
    · rw [hc]; linear_combination -u * d * h1 + u * d * h2 - 2 * u * h3

/-- the lever in space: the waves leaving it are those entering it, changed by the force -/
theorem law_xyz {x y z u Ze a1 a2 a3 b1 b2 b3 l1 l2 l3 a1' a2' a3' b1' b2' b3' l1' l2' l3' : F} (hZe : Ze ≠ 0) (h2 : (2 : F) ≠ 0)
    (hu : u * (x * x + y * y + z * z + 2) = 1) {r1 r2 r3 s m1 m2 m3 : F}
    (hr1 : r1 = a1 - b1 - (y * l3 - z * l2)) (hr2 : r2 = a2 - b2 - (z * l1 - x * l3))
    (hr3 : r3 = a3 - b3 - (x * l2 - y * l1)) (hs : s = x * r1 + y * r2 + z * r3)
    (hm1 : m1 = u * (2 * r1 + x * s)) (hm2 : m2 = u * (2 * r2 + y * s)) (hm3 : m3 = u * (2 * r3 + z * s)) :
    ((a1' = a1 - m1 ∧ a2' = a2 - m2 ∧ a3' = a3 - m3) ∧ (b1' = b1 + m1 ∧ b2' = b2 + m2 ∧ b3' = b3 + m3) ∧
      (l1' = l1 - (y * m3 - z * m2) ∧ l2' = l2 - (z * m1 - x * m3) ∧ l3' = l3 - (x * m2 - y * m1))) ↔
    ((a1 + a1' - (b1 + b1') = y * (l3 + l3') - z * (l2 + l2') ∧ a2 + a2' - (b2 + b2') = z * (l1 + l1') - x * (l3 + l3') ∧
        a3 + a3' - (b3 + b3') = x * (l2 + l2') - y * (l1 + l1')) ∧
      ((a1 - a1') / Ze + (b1 - b1') / Ze = 0 ∧ (a2 - a2') / Ze + (b2 - b2') / Ze = 0 ∧
        (a3 - a3') / Ze + (b3 - b3') / Ze = 0) ∧
      ((l1 - l1') / Ze = y * ((a3 - a3') / Ze) - z * ((a2 - a2') / Ze) ∧
        (l2 - l2') / Ze = z * ((a1 - a1') / Ze) - x * ((a3 - a3') / Ze) ∧
        (l3 - l3') / Ze = x * ((a2 - a2') / Ze) - y * ((a1 - a1') / Ze))) := by
  simp only [mul_div_assoc', ← add_div, ← sub_div, div_left_inj' hZe, div_eq_zero_iff, or_iff_left hZe]
  -- the component of the force along the lever
  have hsm : x * m1 + y * m2 + z * m3 = s := by
    rw [hm1, hm2, hm3]
    linear_combination s * hu - 2 * u * hs
  constructor
  · rintro ⟨⟨rfl, rfl, rfl⟩, ⟨rfl, rfl, rfl⟩, rfl, rfl, rfl⟩
    refine ⟨⟨?_, ?_, ?_⟩, ⟨?_, ?_, ?_⟩, ?_, ?_, ?_⟩
    · linear_combination -2 * hr1 + x * hsm - (x * x + y * y + z * z + 2) * hm1 - (2 * r1 + x * s) * hu
    · linear_combination -2 * hr2 + y * hsm - (x * x + y * y + z * z + 2) * hm2 - (2 * r2 + y * s) * hu
    · linear_combination -2 * hr3 + z * hsm - (x * x + y * y + z * z + 2) * hm3 - (2 * r3 + z * s) * hu
    all_goals ring
  · rintro ⟨⟨g1, g2, g3⟩, ⟨f1, f2, f3⟩, t1, t2, t3⟩
    -- the force
    have e1 : 2 * r1 + x * (x * (a1 - a1') + y * (a2 - a2') + z * (a3 - a3')) =
        (x * x + y * y + z * z + 2) * (a1 - a1') := by
      rw [hr1]; linear_combination g1 - f1 - y * t3 + z * t2
    have e2 : 2 * r2 + y * (x * (a1 - a1') + y * (a2 - a2') + z * (a3 - a3')) =
        (x * x + y * y + z * z + 2) * (a2 - a2') := by
      rw [hr2]; linear_combination g2 - f2 - z * t1 + x * t3
    have e3 : 2 * r3 + z * (x * (a1 - a1') + y * (a2 - a2') + z * (a3 - a3')) =
        (x * x + y * y + z * z + 2) * (a3 - a3') := by
      rw [hr3]; linear_combination g3 - f3 - x * t2 + y * t1
    have es : x * (a1 - a1') + y * (a2 - a2') + z * (a3 - a3') = s := by
      apply mul_left_cancel₀ h2
      rw [hs]
      linear_combination -x * e1 - y * e2 - z * e3
    rw [es] at e1 e2 e3
    have k1 : a1 - a1' = m1 := by rw [hm1, e1]; linear_combination -(a1 - a1') * hu
    have k2 : a2 - a2' = m2 := by rw [hm2, e2]; linear_combination -(a2 - a2') * hu
    have k3 : a3 - a3' = m3 := by rw [hm3, e3]; linear_combination -(a3 - a3') * hu
    rw [← k1, ← k2, ← k3]
    exact ⟨⟨by ring, by ring, by ring⟩, ⟨by linear_combination -f1, by linear_combination -f2, by linear_combination -f3⟩,
      by linear_combination -t1, by linear_combination -t2, by linear_combination -t3⟩

/-- no wave leaves another port -/
theorem v3_off {env : Env P K F} {skip : Bool} {A Q : V3 (Port P)} {M : Arr F} {cs : List (Coupling P K F)}
    (h : matrix_inject env skip A.list Q.list M = .ok cs) (hn : ∀ p, (env.keys p).Nodup) {k : K}
    (hk : ∀ p ∈ A.list, k ∈ env.keys p.i) (x : P × K → F) {t : P} (ht : ∀ q ∈ Q.list, q.o ≠ t) : total cs x (t, k) = 0 := by
  rw [matrix_inject_total h hn hk]
  apply List.sum_eq_zero
  intro v hv
  obtain ⟨q, hq, rfl⟩ := List.mem_map.1 hv
  exact if_neg (ht _ ((List.zipIdx_map_fst 0 Q.list) ▸ List.mem_map_of_mem hq))

/-- the waves leaving the three ports of a direction -/
theorem v3_total {env : Env P K F} {skip : Bool} {A Q : V3 (Port P)} {M : Arr F} {cs : List (Coupling P K F)}
    (h : matrix_inject env skip A.list Q.list M = .ok cs) (hn : ∀ p, (env.keys p).Nodup) {k : K}
    (hk : ∀ p ∈ A.list, k ∈ env.keys p.i) (x : P × K → F) (hd : (Q.list.map Port.o).Nodup) :
    total cs x (Q.X.o, k) = M.val 0 0 * x (A.X.i, k) + M.val 1 0 * x (A.Y.i, k) + M.val 2 0 * x (A.Z.i, k) ∧
    total cs x (Q.Y.o, k) = M.val 0 1 * x (A.X.i, k) + M.val 1 1 * x (A.Y.i, k) + M.val 2 1 * x (A.Z.i, k) ∧
    total cs x (Q.Z.o, k) = M.val 0 2 * x (A.X.i, k) + M.val 1 2 * x (A.Y.i, k) + M.val 2 2 * x (A.Z.i, k) := by
  simp only [V3.list, List.map_cons, List.map_nil, List.nodup_cons, List.mem_cons, List.not_mem_nil, or_false, not_or,
    List.nodup_nil, and_true, not_false_eq_true] at hd
  obtain ⟨⟨i1, i2⟩, i3⟩ := hd
  simp only [matrix_inject_total h hn hk, V3.list, List.zipIdx_cons, List.zipIdx_nil, List.map_cons, List.map_nil,
    List.sum_cons, List.sum_nil, if_true, if_neg i1, if_neg i2, if_neg i3, if_neg (Ne.symm i1), if_neg (Ne.symm i2),
    if_neg (Ne.symm i3)]
  refine ⟨?_, ?_, ?_⟩ <;> norm_num <;> ring

/-- the lever in space -/
theorem xyz_element {env : Env P K F} {dv : V3 F} {d : F} {A B L : V3 (Port P)} {cs : List (Coupling P K F)}
    (h : xyz_setup env dv d A B L = .ok cs) (hn : ∀ p, (env.keys p).Nodup) (hZe : env.Ze ≠ 0) (h2 : (2 : F) ≠ 0) {k : K}
    (hk : ∀ p ∈ A.list ++ (B.list ++ L.list), k ∈ env.keys p.i) (hd : ((A.list ++ (B.list ++ L.list)).map Port.o).Nodup)
    (root : d ^ 2 = dv.dot dv) (x : P × K → F) (b : P → F) :
    (∀ p ∈ A.list ++ (B.list ++ L.list), b p.o = total cs x (p.o, k)) ↔
    (Mech.xyz dv d root A B L).Law env k (fun p => x (p.i, k) + b p.o) (fun p => (x (p.i, k) - b p.o) / env.Ze) := by
  unfold xyz_setup at h
  dsimp only at h
  split_ifs at h with h0
  rw [not_or] at h0
  obtain ⟨hdot, hden⟩ := h0
  obtain ⟨c1, _, h1, g1, rfl⟩ := blocks_cons h
  obtain ⟨c2, _, q2, g2, rfl⟩ := blocks_cons g1
  obtain ⟨c3, _, q3, g3, rfl⟩ := blocks_cons g2
  obtain ⟨c4, _, q4, g4, rfl⟩ := blocks_cons g3
  obtain ⟨c5, _, q5, g5, rfl⟩ := blocks_cons g4
  obtain ⟨c6, _, q6, g6, rfl⟩ := blocks_cons g5
  obtain ⟨c7, _, q7, g7, rfl⟩ := blocks_cons g6
  obtain ⟨c8, _, q8, g8, rfl⟩ := blocks_cons g7
  obtain ⟨c9, _, q9, g9, rfl⟩ := blocks_cons g8
  obtain rfl := blocks_nil g9
  have kA : ∀ p ∈ A.list, k ∈ env.keys p.i := fun p hp => hk p (List.mem_append_left _ hp)
  have kB : ∀ p ∈ B.list, k ∈ env.keys p.i := fun p hp => hk p (List.mem_append_right _ (List.mem_append_left _ hp))
  have kL : ∀ p ∈ L.list, k ∈ env.keys p.i := fun p hp => hk p (List.mem_append_right _ (List.mem_append_right _ hp))
  have hd0 : d ≠ 0 := by
    rintro rfl
    apply hdot
    rw [← root]
    ring
  rw [List.map_append, List.nodup_append, List.map_append, List.nodup_append] at hd
  obtain ⟨nA, ⟨nB, nL, dBL⟩, dABL⟩ := hd
  have dAB : ∀ p ∈ A.list, ∀ q ∈ B.list, q.o ≠ p.o := fun p hp q hq =>
    (dABL _ (List.mem_map_of_mem hp) _ (List.mem_append_left _ (List.mem_map_of_mem hq))).symm
  have dAL : ∀ p ∈ A.list, ∀ q ∈ L.list, q.o ≠ p.o := fun p hp q hq =>
    (dABL _ (List.mem_map_of_mem hp) _ (List.mem_append_right _ (List.mem_map_of_mem hq))).symm
  have dBA : ∀ p ∈ B.list, ∀ q ∈ A.list, q.o ≠ p.o := fun p hp q hq => (dAB q hq p hp).symm
  have dLA : ∀ p ∈ L.list, ∀ q ∈ A.list, q.o ≠ p.o := fun p hp q hq => (dAL q hq p hp).symm
  have dLB : ∀ p ∈ L.list, ∀ q ∈ B.list, q.o ≠ p.o := fun p hp q hq =>
    dBL _ (List.mem_map_of_mem hq) _ (List.mem_map_of_mem hp)
  have dBL' : ∀ p ∈ B.list, ∀ q ∈ L.list, q.o ≠ p.o := fun p hp q hq => (dLB q hq p hp).symm
  have tA : ∀ p ∈ A.list, total (c1 ++ (c2 ++ (c3 ++ (c4 ++ (c5 ++ (c6 ++ (c7 ++ (c8 ++ (c9 ++ []))))))))) x (p.o, k) =
      total c1 x (p.o, k) + total c5 x (p.o, k) + total c9 x (p.o, k) := by
    intro p hp
    simp only [total_append, total_nil]
    rw [v3_off q2 hn kB x (dAB p hp), v3_off q3 hn kL x (dAL p hp), v3_off q4 hn kA x (dAL p hp),
      v3_off q6 hn kB x (dAL p hp), v3_off q7 hn kL x (dAB p hp), v3_off q8 hn kA x (dAB p hp)]
    ring
  have tB : ∀ p ∈ B.list, total (c1 ++ (c2 ++ (c3 ++ (c4 ++ (c5 ++ (c6 ++ (c7 ++ (c8 ++ (c9 ++ []))))))))) x (p.o, k) =
      total c8 x (p.o, k) + total c2 x (p.o, k) + total c7 x (p.o, k) := by
    intro p hp
    simp only [total_append, total_nil]
    rw [v3_off h1 hn kA x (dBA p hp), v3_off q3 hn kL x (dBL' p hp), v3_off q4 hn kA x (dBL' p hp),
      v3_off q5 hn kL x (dBA p hp), v3_off q6 hn kB x (dBL' p hp), v3_off q9 hn kB x (dBA p hp)]
    ring
  have tL : ∀ p ∈ L.list, total (c1 ++ (c2 ++ (c3 ++ (c4 ++ (c5 ++ (c6 ++ (c7 ++ (c8 ++ (c9 ++ []))))))))) x (p.o, k) =
      total c4 x (p.o, k) + total c6 x (p.o, k) + total c3 x (p.o, k) := by
    intro p hp
    simp only [total_append, total_nil]
    rw [v3_off h1 hn kA x (dLA p hp), v3_off q2 hn kB x (dLB p hp), v3_off q5 hn kL x (dLA p hp),
      v3_off q7 hn kL x (dLB p hp), v3_off q8 hn kA x (dLB p hp), v3_off q9 hn kB x (dLA p hp)]
    ring
  obtain ⟨x11, x12, x13⟩ := v3_total h1 hn kA x nA
  obtain ⟨x21, x22, x23⟩ := v3_total q2 hn kB x nB
  obtain ⟨x31, x32, x33⟩ := v3_total q3 hn kL x nL
  obtain ⟨x41, x42, x43⟩ := v3_total q4 hn kA x nL
  obtain ⟨x51, x52, x53⟩ := v3_total q5 hn kL x nA
  obtain ⟨x61, x62, x63⟩ := v3_total q6 hn kB x nL
  obtain ⟨x71, x72, x73⟩ := v3_total q7 hn kL x nB
  obtain ⟨x81, x82, x83⟩ := v3_total q8 hn kA x nB
  obtain ⟨x91, x92, x93⟩ := v3_total q9 hn kB x nA
  have e : (∀ p ∈ A.list ++ (B.list ++ L.list), b p.o =
      total (c1 ++ (c2 ++ (c3 ++ (c4 ++ (c5 ++ (c6 ++ (c7 ++ (c8 ++ (c9 ++ []))))))))) x (p.o, k)) ↔
      (∀ p ∈ A.list, b p.o = total c1 x (p.o, k) + total c5 x (p.o, k) + total c9 x (p.o, k)) ∧
      (∀ p ∈ B.list, b p.o = total c8 x (p.o, k) + total c2 x (p.o, k) + total c7 x (p.o, k)) ∧
      (∀ p ∈ L.list, b p.o = total c4 x (p.o, k) + total c6 x (p.o, k) + total c3 x (p.o, k)) := by
    constructor
    · intro h
      refine ⟨fun p hp => ?_, fun p hp => ?_, fun p hp => ?_⟩
      · rw [← tA p hp]; exact h p (List.mem_append_left _ hp)
      · rw [← tB p hp]; exact h p (List.mem_append_right _ (List.mem_append_left _ hp))
      · rw [← tL p hp]; exact h p (List.mem_append_right _ (List.mem_append_right _ hp))
    · rintro ⟨hA, hB, hL⟩ p hp
      rcases List.mem_append.1 hp with hp | hp
      · rw [tA p hp]; exact hA p hp
      rcases List.mem_append.1 hp with hp | hp
      · rw [tB p hp]; exact hB p hp
      · rw [tL p hp]; exact hL p hp
  rw [e]
  have hu : 1 / (d ^ 2 + 2) * (dv.X * dv.X + dv.Y * dv.Y + dv.Z * dv.Z + 2) = 1 := by
    rw [root] at hden ⊢
    exact one_div_mul_cancel hden
  refine Iff.trans ?_ (law_xyz hZe h2 hu rfl rfl rfl rfl rfl rfl rfl)
  simp only [V3.list, List.mem_cons, List.not_mem_nil, or_false, forall_eq_or_imp, forall_eq, x11, x12, x13, x21, x22, x23,
    x31, x32, x33, x41, x42, x43, x51, x52, x53, x61, x62, x63, x71, x72, x73, x81, x82, x83, x91, x92, x93]
  refine and_congr (and_congr (Eq.congr rfl ?_) (and_congr (Eq.congr rfl ?_) (Eq.congr rfl ?_)))
    (and_congr (and_congr (Eq.congr rfl ?_) (and_congr (Eq.congr rfl ?_) (Eq.congr rfl ?_)))
      (and_congr (Eq.congr rfl ?_) (and_congr (Eq.congr rfl ?_) (Eq.congr rfl ?_))))
  all_goals
    simp only [xyz_Isub, xyz_Pd, xyz_Pforce, eye3, V3.at, ← root]
    simp only [V3.dot] at root
    field_simp
    norm_num
  iterate 6 ring
  · linear_combination -2 * d ^ 2 * x (L.X.i, k) * root
  · linear_combination -2 * d ^ 2 * x (L.Y.i, k) * root
  · linear_combination -2 * d ^ 2 * x (L.Z.i, k) * root

/-- **C89**: the waves leaving a mechanical element are the sums of the couplings it inserts exactly when its law holds for
the displacements and the forces of the waves. -/
theorem C89_element {env : Env P K F} {m : Mech P F} {cs : List (Coupling P K F)} (h : m.setup env = .ok cs)
    (hn : ∀ p, (env.keys p).Nodup) (hZe : env.Ze ≠ 0) (h2 : (2 : F) ≠ 0) {k : K}
    (hk : ∀ p ∈ m.ports, k ∈ env.keys p.i) (hd : (m.ports.map Port.o).Nodup) (x : P × K → F) (b : P → F) :
    (∀ p ∈ m.ports, b p.o = total cs x (p.o, k)) ↔
    m.Law env k (fun p => x (p.i, k) + b p.o) (fun p => (x (p.i, k) - b p.o) / env.Ze) := by
  cases m with
  | one t A =>
    replace h : setup1 env (fun f => terminatorM env (t.mobility env f)) A = .ok cs := h
    obtain ⟨r, hr, hx⟩ := setup1_into h hn (hk A (by simp [Mech.ports]))
    simp only [Mech.ports, List.mem_singleton, forall_eq, hx, if_true]
    obtain ⟨h3, rfl⟩ := pdiv_ok hr
    rw [t.mobility_eq] at h3 ⊢
    exact law_admittance hZe h3
  | two t A B =>
    have hAB : A.o ≠ B.o := by
      intro he
      simp [Mech.ports, he] at hd
    replace h : setup2 env (fun f => seriesM_r env (t.mobility env f)) (fun f => seriesM_t env (t.mobility env f))
      (fun f => seriesM_t env (t.mobility env f)) (fun f => seriesM_r env (t.mobility env f)) A B = .ok cs := h
    obtain ⟨r, u, u', r', hr, hu, hu', hr', hx⟩ := setup2_into h hn (hk A (by simp [Mech.ports]))
      (hk B (by simp [Mech.ports])) hAB
    simp only [Mech.ports, List.mem_cons, List.not_mem_nil, or_false, forall_eq_or_imp, forall_eq, (hx x).1, (hx x).2]
    obtain ⟨h3, rfl⟩ := pdiv_ok hr
    obtain ⟨-, rfl⟩ := pdiv_ok hu
    obtain ⟨-, rfl⟩ := pdiv_ok hu'
    obtain ⟨-, rfl⟩ := pdiv_ok hr'
    rw [t.mobility_eq] at h3 ⊢
    exact law_series_admittance hZe h3
  | cable l Loss rt A B =>
    have hAB : A.o ≠ B.o := by
      intro he
      simp [Mech.ports, he] at hd
    replace h : mcable_setup env l Loss rt A B = .ok cs := h
    unfold mcable_setup at h
    obtain ⟨c1, _, h1, g1, rfl⟩ := blocks_cons h
    obtain ⟨c2, _, h3, g2, rfl⟩ := blocks_cons g1
    obtain rfl := blocks_nil g2
    obtain ⟨v, hv, e1⟩ := per_key_into h1 (hn _) (hk A (by simp [Mech.ports]))
    obtain ⟨w, hw, e2⟩ := per_key_into h3 (hn _) (hk B (by simp [Mech.ports]))
    cases hv
    cases hw
    have hl : loss_coeff rt Loss = if Loss = 0 then 1 else rt (1 - Loss) := by
      unfold loss_coeff
      by_cases h : Loss = 0 <;> simp [h]
    simp only [Mech.ports, List.mem_cons, List.not_mem_nil, or_false, forall_eq_or_imp, forall_eq, total_append,
      total_nil, e1, e2, if_true, if_neg hAB, if_neg (Ne.symm hAB), add_zero, zero_add, Mech.Law, mcable_phase, hl]
    simp only [mul_div_cancel₀ _ hZe]
    generalize env.exp (-2 * env.i * env.pi * env.freq k * l) * (if Loss = 0 then 1 else rt (1 - Loss)) = e
    constructor
    · rintro ⟨h4, h5⟩
      exact ⟨by linear_combination 2 * h5, by linear_combination 2 * h4⟩
    · rintro ⟨h4, h5⟩
      refine ⟨?_, ?_⟩
      · apply mul_left_cancel₀ h2; linear_combination h5
      · apply mul_left_cancel₀ h2; linear_combination h4
  | zconv y eps A B =>
    have hAB : A.o ≠ B.o := by
      intro he
      simp [Mech.ports, he] at hd
    replace h : zconv_setup env y eps A B = .ok cs := h
    unfold zconv_setup at h
    obtain ⟨r, u, u', r', hr, hu, hu', hr', hx⟩ := setup2_into h hn (hk A (by simp [Mech.ports]))
      (hk B (by simp [Mech.ports])) hAB
    have hS : ∀ {num : F → F → F} {v : F}, zconv_S env y eps num (env.freq k) = .ok v →
        env.i2pi * env.freq k / env.Ze + eps + (env.i2pi * env.freq k * y + eps) ≠ 0 ∧
        v = num (env.i2pi * env.freq k / env.Ze + eps) (env.i2pi * env.freq k * y + eps) /
          (env.i2pi * env.freq k / env.Ze + eps + (env.i2pi * env.freq k * y + eps)) := by
      intro num v hv
      unfold zconv_S zconv_Y1 zconv_Y2 pdiv at hv
      rw [if_neg hZe, mul_one] at hv
      exact pdiv_ok hv
    obtain ⟨h3, rfl⟩ := hS hr
    obtain ⟨-, rfl⟩ := hS hu
    obtain ⟨-, rfl⟩ := hS hu'
    obtain ⟨-, rfl⟩ := hS hr'
    simp only [Mech.ports, List.mem_cons, List.not_mem_nil, or_false, forall_eq_or_imp, forall_eq, (hx x).1, (hx x).2]
    exact law_zconv hZe h3
  | lever d A B L =>
    replace h : lever_setup env d A B L = .ok cs := h
    unfold lever_setup at h
    obtain ⟨M, hM, h1⟩ := bind_ok_inv h
    unfold lever_matrix at hM
    obtain ⟨c, hc, hM⟩ := bind_ok_inv hM
    obtain ⟨hD, rfl⟩ := pdiv_ok hc
    injection hM with hM
    subst hM
    simp only [Mech.ports, List.map_cons, List.map_nil, List.nodup_cons, List.mem_cons, List.not_mem_nil, or_false,
      not_or, List.nodup_nil, and_true, not_false_eq_true] at hd
    obtain ⟨⟨i1, i2⟩, i3⟩ := hd
    have e := fun t => matrix_inject_total h1 hn hk x t
    simp only [Mech.ports, List.mem_cons, List.not_mem_nil, or_false, forall_eq_or_imp, forall_eq, e, List.zipIdx_cons,
      List.zipIdx_nil, List.map_cons, List.map_nil, List.sum_cons, List.sum_nil, if_true, if_neg i1, if_neg i2,
      if_neg i3, if_neg (Ne.symm i1), if_neg (Ne.symm i2), if_neg (Ne.symm i3), add_zero, zero_add]
    exact law_lever hZe hD
  | xyz dv d root A B L =>
    exact xyz_element h hn hZe h2 hk hd root x b

end Circuit
