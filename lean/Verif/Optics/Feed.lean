import Verif.Optics.Passive

/-!
# Networks without loops, used to build solutions for the examples
-/

set_option linter.unusedSectionVars false

namespace Optics
open Py Inject Circuit

section
variable {P K F : Type} [DecidableEq P] [DecidableEq K] [Field F] [DecidableEq F]

/-- A coupling reads only nodes that lie below the node it drives. -/
def Ahead (d : P × K → ℕ) (c : Coupling P K F) : Prop :=
  ∀ x y n, (∀ m, d m < d n → x m = y m) → c.into x n = c.into y n

theorem ahead_edge {d : P × K → ℕ} {a b : P × K} {v : F} (h : d a < d b) : Ahead d (Coupling.edge a b v) := by
  intro x y n hxy
  rw [into_edge, into_edge]
  by_cases hb : b = n
  · subst hb
    rw [if_pos rfl, if_pos rfl, hxy a h]
  · rw [if_neg hb, if_neg hb]

theorem ahead_total {d : P × K → ℕ} {cs : List (Coupling P K F)} (h : ∀ c ∈ cs, Ahead d c) {x y : P × K → F} {n : P × K}
    (hxy : ∀ m, d m < d n → x m = y m) : total cs x n = total cs y n := by
  unfold total
  congr 1
  exact List.map_congr_left (fun c hc => h c hc x y n hxy)

/-- A network without loops has a solution for all inputs. -/
theorem feed_exists {d : P × K → ℕ} {cs : List (Coupling P K F)} (h : ∀ c ∈ cs, Ahead d c) (g : P × K → F) :
    ∃ x : P × K → F, (∀ n, d n = 0 → x n = g n) ∧ ∀ n, 0 < d n → x n = total cs x n := by
  let X : ℕ → P × K → F := fun i => Nat.rec g (fun _ y n => if d n = 0 then g n else total cs y n) i
  have hs : ∀ i n, X (i + 1) n = if d n = 0 then g n else total cs (X i) n := fun _ _ => rfl
  have hstable : ∀ i n, d n ≤ i → X (i + 1) n = X i n := by
    intro i
    induction i with
    | zero =>
      intro n hn
      rw [hs, if_pos (by omega)]
      rfl
    | succ i ih =>
      intro n hn
      rw [hs (i + 1), hs i]
      split_ifs
      · rfl
      · exact ahead_total h (fun m hm => ih m (by omega))
  have hfix : ∀ i n, d n ≤ i → X i n = X (d n) n := by
    intro i
    induction i with
    | zero =>
      intro n hn
      rw [Nat.le_zero.1 hn]
    | succ i ih =>
      intro n hn
      rcases Nat.lt_or_ge i (d n) with h1 | h1
      · rw [show i + 1 = d n by omega]
      · rw [hstable i n h1, ih n h1]
  refine ⟨fun n => X (d n) n, fun n hn => ?_, fun n hn => ?_⟩
  · show X (d n) n = g n
    rw [hn]
    rfl
  · show X (d n) n = _
    obtain ⟨i, hi⟩ : ∃ i, d n = i + 1 := ⟨d n - 1, by omega⟩
    rw [hi, hs, if_neg (by omega)]
    exact ahead_total h (fun m hm => hfix i m (by omega))

end

variable {P O K F : Type} [DecidableEq P] [DecidableEq O] [DecidableEq K] [AddCommGroup K] [Field F] [StarRing F]
  [DecidableEq F]
variable {env : OEnv P O K F}

/-- An edge between optical nodes that goes up and keeps the light on the listed keys. -/
def Lifts (d : P → ℕ) (ks : List (OKey O K)) (c : Coupling P (Key O K) F) : Prop :=
  ∃ p j r k v, c = .edge (on p j) (on r k) v ∧ d p < d r ∧ k ∈ ks

/-- Solutions of optical networks without loops, with light on the listed keys only. -/
theorem lifts_exists {d : P → ℕ} {ks : List (OKey O K)} {cs : List (Coupling P (Key O K) F)} (h : ∀ c ∈ cs, Lifts d ks c)
    (g : P → OKey O K → F) (hg : ∀ p k, k ∉ ks → g p k = 0) :
    ∃ x : P × Key O K → F, (∀ p k, d p = 0 → x (p, .opt k) = g p k) ∧ (∀ p k, k ∉ ks → x (p, .opt k) = 0) ∧
      ∀ p k, 0 < d p → x (p, .opt k) = total cs x (on p k) := by
  obtain ⟨x, h0, h1⟩ := feed_exists (d := fun n : P × Key O K => d n.1) (cs := cs)
    (by
      intro c hc
      obtain ⟨p, j, r, k, v, rfl, hlt, _⟩ := h c hc
      exact ahead_edge hlt)
    (fun n => match n with | (p, .opt k) => g p k | (_, .sig _) => 0)
  refine ⟨x, fun p k hp => h0 (p, .opt k) hp, fun p k hk => ?_, fun p k hp => h1 (p, .opt k) hp⟩
  rcases Nat.eq_zero_or_pos (d p) with hp | hp
  · rw [h0 (p, .opt k) hp]
    exact hg p k hk
  · rw [h1 (p, .opt k) hp]
    unfold total
    apply List.sum_eq_zero
    intro v hv
    obtain ⟨c, hc, rfl⟩ := List.mem_map.1 hv
    obtain ⟨p', j, r, k', v, rfl, _, hk'⟩ := h c hc
    rw [into_edge, if_neg]
    intro e
    injection e with _ e
    injection e with e
    exact hk (e ▸ hk')

theorem lifts_both {d : P → ℕ} {ks : List (OKey O K)} {p q : Port P} (h1 : d p.i < d q.o) (h2 : d q.i < d p.o)
    (hp : env.okeys p.i = ks) (hq : env.okeys q.i = ks) (v : OKey O K → F) :
    ∀ c ∈ [(p, q), (q, p)].flatMap (fun pq => (env.okeys pq.1.i).map
      (fun k => Coupling.edge (on pq.1.i k) (on pq.2.o k) (v k))), Lifts d ks c := by
  intro c hc
  obtain ⟨pq, hpq, hc⟩ := List.mem_flatMap.1 hc
  obtain ⟨k, hk, rfl⟩ := List.mem_map.1 hc
  simp only [List.mem_cons, List.not_mem_nil, or_false] at hpq
  rcases hpq with rfl | rfl
  · exact ⟨_, _, _, _, _, rfl, h1, hp ▸ hk⟩
  · exact ⟨_, _, _, _, _, rfl, h2, hq ▸ hk⟩

theorem lifts_run {d : P → ℕ} {ks : List (OKey O K)} (hks : ∀ k ∈ ks, k.flip ∈ ks) (e : Rotator P F) (back : F)
    (h1 : d e.po_Fr.i < d e.po_Bk.o) (h2 : d e.po_Bk.i < d e.po_Fr.o) (hp : env.okeys e.po_Fr.i = ks)
    (hq : env.okeys e.po_Bk.i = ks) : ∀ c ∈ e.run env back, Lifts d ks c := by
  have hrot : ∀ (a b : P) (s t : F), d a < d b → ∀ c ∈ ks.flatMap (fun k => rotate_key a b k s t), Lifts d ks c := by
    intro a b s t hab c hc
    obtain ⟨k, hk, hc⟩ := List.mem_flatMap.1 hc
    have hf := hks k hk
    obtain ⟨o, f, p, q⟩ := k
    cases p <;>
    · simp only [rotate_key, List.mem_cons, List.not_mem_nil, or_false] at hc
      rcases hc with rfl | rfl
      · exact ⟨_, _, _, _, _, rfl, hab, hk⟩
      · exact ⟨_, _, _, _, _, rfl, hab, hf⟩
  have hqua : ∀ (a b : P) (s : F), d a < d b → ∀ c ∈ ks.flatMap (fun k => quarter_key a b k s), Lifts d ks c := by
    intro a b s hab c hc
    obtain ⟨k, hk, hc⟩ := List.mem_flatMap.1 hc
    have hf := hks k hk
    obtain ⟨o, f, p, q⟩ := k
    cases p <;>
    · simp only [quarter_key, List.mem_cons, List.not_mem_nil, or_false] at hc
      subst hc
      exact ⟨_, _, _, _, _, rfl, hab, hf⟩
  unfold Rotator.run
  dsimp only
  by_cases c1 : e.rotate_deg = 0 ∨ e.rotate_deg = 180 ∨ e.rotate_deg = -180
  · rw [if_pos c1]
    exact lifts_both h1 h2 hp hq _
  · rw [if_neg c1]
    by_cases c2 : e.rotate_deg = 90 ∨ e.rotate_deg = -90 ∨ e.rotate_deg = 270 ∨ e.rotate_deg = -270
    · rw [if_pos c2, hp, hq]
      intro c hc
      rcases List.mem_append.1 hc with hc | hc
      · exact hqua _ _ _ h1 c hc
      · exact hqua _ _ _ h2 c hc
    · rw [if_neg c2, hp, hq]
      intro c hc
      rcases List.mem_append.1 hc with hc | hc
      · exact hrot _ _ _ _ h1 c hc
      · exact hrot _ _ _ _ h2 c hc

theorem lifts_wire {d : P → ℕ} {ks : List (OKey O K)} {a b : P} (h : d a < d b) (ha : env.okeys a = ks) :
    ∀ c ∈ owire_setup env a b, Lifts d ks c := by
  intro c hc
  unfold owire_setup at hc
  rw [ha] at hc
  obtain ⟨k, hk, rfl⟩ := List.mem_map.1 hc
  exact ⟨_, _, _, _, _, rfl, h, hk⟩

end Optics
