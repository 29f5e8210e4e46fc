import Mathlib.Algebra.BigOperators.Group.Finset.Basic
import Mathlib.Algebra.BigOperators.Group.Finset.Sigma
import Mathlib.Algebra.BigOperators.Ring.Finset
import Mathlib.Tactic.FieldSimp
import Verif.Optics.Model
import Verif.Signal.Product

/-!
# What optical elements contribute to a node

Lemmas: the sum over the couplings of `modulations_fill_2optical_2classical` as a sum over keys.
-/

set_option linter.unusedSectionVars false

namespace Optics
open Py Inject Circuit
open Signal (Balanced sum_pick sum_skip)

section generic
variable {P K F : Type} [DecidableEq P] [DecidableEq K] [Field F] [DecidableEq F]

theorem total_flatMap {α : Type} (l : List α) (f : α → List (Coupling P K F)) (x : P × K → F) (t : P × K) :
    total (l.flatMap f) x t = (l.map (fun a => total (f a) x t)).sum := by
  induction l with
  | nil => rfl
  | cons a l ih => rw [List.flatMap_cons, total_append, ih, List.map_cons, List.sum_cons]

theorem total_map {α : Type} (l : List α) (f : α → Coupling P K F) (x : P × K → F) (t : P × K) :
    total (l.map f) x t = (l.map (fun a => (f a).into x t)).sum := by
  induction l with
  | nil => rfl
  | cons a l ih => rw [List.map_cons, total_cons, ih, List.map_cons, List.sum_cons]

theorem total_single (c : Coupling P K F) (x : P × K → F) (t : P × K) : total [c] x t = c.into x t := by
  rw [total_cons, total_nil, add_zero]

theorem blocks_ok {bs : List (Except Err (List (Coupling P K F)))} (h : ∀ b ∈ bs, ∃ e, b = .ok e) :
    ∃ cs, blocks bs = .ok cs := by
  induction bs with
  | nil => exact ⟨[], rfl⟩
  | cons b bs ih =>
    obtain ⟨c, rfl⟩ := h b List.mem_cons_self
    obtain ⟨cs, hcs⟩ := ih (fun b hb => h b (List.mem_cons_of_mem _ hb))
    refine ⟨c ++ cs, ?_⟩
    unfold blocks
    rw [hcs]
    rfl

/-- blocks made from a list of things, each with a known contribution -/
theorem blocks_map {α : Type} {l : List α} {f : α → Except Err (List (Coupling P K F))} {cs : List (Coupling P K F)}
    (h : blocks (l.map f) = .ok cs) {g : α → F} {x : P × K → F} {t : P × K}
    (hg : ∀ a ∈ l, ∀ ds, f a = .ok ds → total ds x t = g a) : total cs x t = (l.map g).sum := by
  induction l generalizing cs with
  | nil =>
    obtain rfl := blocks_nil h
    rfl
  | cons a l ih =>
    obtain ⟨c, ds, hc, hd, rfl⟩ := blocks_cons h
    rw [total_append, hg a List.mem_cons_self c hc, ih hd (fun b hb => hg b (List.mem_cons_of_mem _ hb)), List.map_cons,
      List.sum_cons]

theorem into_triplet (x : P × K → F) (p q r t : P × K) (v : F) :
    (Coupling.triplet p q r v).into x t = if r = t then v * x p * x q else 0 := rfl

theorem into_multEdge (x : P × K → F) (p q r t : P × K) (v : F) :
    (Coupling.multEdge p q v [r]).into x t = if q = t then v * x r * x p else 0 := by
  show (if q = t then v * ([r].map x).prod * x p else 0) = _
  rw [List.map_cons, List.map_nil, List.prod_cons, List.prod_nil, mul_one]

end generic

variable {P O K F : Type} [DecidableEq P] [DecidableEq O] [DecidableEq K] [AddCommGroup K] [Field F] [StarRing F]
  [DecidableEq F]

/-! ## loops over pairs of signal keys -/

theorem pair_loop_ok {C : Type} {all : List K} (hall : ∀ k ∈ all, -k ∈ all) (skipDC : Bool) (emit : K → List C)
    (ks : List K) : ∀ completed : List K, (∀ k ∈ ks, k ∈ all) → ∃ cs, pair_loop all skipDC emit completed ks = .ok cs := by
  induction ks with
  | nil => intro completed _; exact ⟨[], rfl⟩
  | cons k ks ih =>
    intro completed h
    have h' : ∀ l ∈ ks, l ∈ all := fun l hl => h l (List.mem_cons_of_mem _ hl)
    unfold pair_loop
    split_ifs with h1 h2 h3
    · exact ih _ h'
    · exact ih _ h'
    · obtain ⟨cs, hcs⟩ := ih (-k :: k :: completed) h'
      exact ⟨emit k ++ cs, by rw [hcs]; rfl⟩
    · exact absurd (hall k (h k List.mem_cons_self)) h3

/-- A loop over pairs contributes the sum of what the single keys contribute. -/
theorem pair_loop_sum {C : Type} {all : List K} {skipDC : Bool} {emit : K → List C} {T : List C → F} {g : K → F}
    (T0 : T [] = 0) (Ta : ∀ a b, T (a ++ b) = T a + T b) (hpair : ∀ k, -k ≠ k → T (emit k) = g k + g (-k))
    (hself : ∀ k, -k = k → skipDC = false → T (emit k) = g k) (ks : List K) :
    ∀ (completed : List K) (cs : List C), ks.Nodup →
    (∀ k ∈ ks, k ∉ completed → -k ∈ ks ∧ -k ∉ completed) →
    pair_loop all skipDC emit completed ks = .ok cs →
    T cs = (ks.map (fun k => if k ∈ completed then 0 else if skipDC = true ∧ -k = k then 0 else g k)).sum := by
  induction ks with
  | nil =>
    intro completed cs _ _ h
    injection h with h
    subst h
    exact T0
  | cons k ks ih =>
    intro completed cs hn hc h
    obtain ⟨hk, hn'⟩ := List.nodup_cons.1 hn
    rw [List.map_cons, List.sum_cons]
    unfold pair_loop at h
    by_cases h1 : k ∈ completed
    · rw [if_pos h1] at h
      rw [if_pos h1, zero_add]
      refine ih _ _ hn' (fun l hl hla => ?_) h
      obtain ⟨h3, h4⟩ := hc l (List.mem_cons_of_mem _ hl) hla
      refine ⟨(List.mem_cons.1 h3).resolve_left ?_, h4⟩
      intro h'
      exact h4 (h' ▸ h1)
    rw [if_neg h1] at h
    rw [if_neg h1]
    by_cases h2 : skipDC = true ∧ -k = k
    · rw [if_pos h2] at h
      rw [if_pos h2, zero_add]
      refine ih _ _ hn' (fun l hl hla => ?_) h
      obtain ⟨h3, h4⟩ := hc l (List.mem_cons_of_mem _ hl) hla
      refine ⟨(List.mem_cons.1 h3).resolve_left ?_, h4⟩
      intro h'
      have : l = k := by rw [← neg_neg l, h', h2.2]
      exact hk (this ▸ hl)
    rw [if_neg h2] at h
    rw [if_neg h2]
    by_cases h3 : -k ∉ all
    · rw [if_pos h3] at h
      cases h
    rw [if_neg h3] at h
    obtain ⟨ds, hd, h⟩ := bind_ok_inv h
    injection h with h
    subst h
    have hnext : ∀ l ∈ ks, l ∉ -k :: k :: completed → -l ∈ ks ∧ -l ∉ -k :: k :: completed := by
      intro l hl hla
      rw [List.mem_cons, List.mem_cons, not_or, not_or] at hla
      obtain ⟨h6, h7⟩ := hc l (List.mem_cons_of_mem _ hl) hla.2.2
      have hne : -l ≠ k := fun h => hla.1 (by rw [← h, neg_neg])
      refine ⟨(List.mem_cons.1 h6).resolve_left hne, ?_⟩
      rw [List.mem_cons, List.mem_cons, not_or, not_or]
      exact ⟨fun h => hla.2.1 (neg_inj.1 h), hne, h7⟩
    rw [Ta, ih _ _ hn' hnext hd]
    have hskip : ∀ c : List K, (ks.map (fun l => if l ∈ -k :: k :: c then 0 else
        if skipDC = true ∧ -l = l then 0 else g l)).sum =
        (ks.map (fun l => if l ∈ -k :: c then 0 else if skipDC = true ∧ -l = l then 0 else g l)).sum := by
      intro c
      congr 1
      apply List.map_congr_left
      intro l hl
      have hne : l ≠ k := fun h => hk (h ▸ hl)
      simp only [List.mem_cons, hne, false_or]
    rw [hskip]
    by_cases h5 : -k = k
    · have hs : skipDC = false := by
        cases hsd : skipDC with
        | false => rfl
        | true => exact absurd ⟨hsd, h5⟩ h2
      rw [hself k h5 hs, h5, sum_skip hk]
    · obtain ⟨h6, h7⟩ := hc k List.mem_cons_self h1
      have h8 : -k ∈ ks := (List.mem_cons.1 h6).resolve_left h5
      rw [hpair k h5, sum_pick hn' h8 completed h7]
      have h9 : ¬ (skipDC = true ∧ - -k = -k) := fun h => h5 (neg_inj.1 h.2)
      rw [if_neg h9, add_assoc]

theorem pair_loop_balanced {C : Type} {all : List K} (hall : Balanced all) {skipDC : Bool} {emit : K → List C}
    {T : List C → F} {g : K → F} (T0 : T [] = 0) (Ta : ∀ a b, T (a ++ b) = T a + T b)
    (hpair : ∀ k, -k ≠ k → T (emit k) = g k + g (-k)) (hself : ∀ k, -k = k → skipDC = false → T (emit k) = g k)
    {cs : List C} (h : pair_loop all skipDC emit [] all = .ok cs) :
    T cs = (all.map (fun k => if skipDC = true ∧ -k = k then 0 else g k)).sum := by
  rw [pair_loop_sum T0 Ta hpair hself all [] cs hall.1 (fun k hk _ => ⟨hall.2 k hk, List.not_mem_nil⟩) h]
  simp

/-! ## modulation -/

variable (env : OEnv P O K F)

/-- The frequency by which a signal key moves a key of the light. -/
def shift (q : Quantum) (lk : K) : K :=
  match q with
  | .lower => lk
  | .raise => -lk

/-- One number for the lowering and one for the raising fields. -/
def Quantum.pick (q : Quantum) (a b : F) : F :=
  match q with
  | .lower => a
  | .raise => b

/-- The light at `k`, modulated by the signal at `lk`. -/
def Mod.clTerm (m : Mod P F) (k : OKey O K) (pto inp : P) (x : P × Key O K → F) (t : P × Key O K) (lk : K) : F :=
  if env.reject (k.cls + shift k.q lk) = false ∧ on pto (k.at (k.cls + shift k.q lk)) = t then
    k.q.pick (m.Stdcplg * m.CLcplg) (m.StdcplgC * m.CLcplgC) *
      x (on m.pfrom.i k) * x (sn inp lk)
  else 0

theorem cl_pair_total (m : Mod P F) (k : OKey O K) (pto inp : P) (x : P × Key O K → F) (t : P × Key O K) (lk : K) :
    total (m.cl_pair env k pto inp lk) x t = m.clTerm env k pto inp x t lk + m.clTerm env k pto inp x t (-lk) := by
  unfold Mod.cl_pair Mod.clTerm sideband shift Quantum.pick
  cases k.q with
  | lower =>
    dsimp only
    rw [total_append]
    congr 1
    · by_cases h : env.reject (k.cls + lk) = true
      · simp [h, total_nil]
      · rw [if_neg h]
        dsimp only
        rw [total_single, into_triplet]
        simp [h]
    · by_cases h : env.reject (k.cls + -lk) = true
      · simp [h, total_nil]
      · rw [if_neg h]
        dsimp only
        rw [total_single, into_triplet]
        simp [h]
  | raise =>
    dsimp only
    rw [total_append, add_comm, neg_neg]
    congr 1
    · by_cases h : env.reject (k.cls + -lk) = true
      · simp [h, total_nil]
      · rw [if_neg h]
        dsimp only
        rw [total_single, into_triplet]
        simp [h]
    · by_cases h : env.reject (k.cls + lk) = true
      · simp [h, total_nil]
      · rw [if_neg h]
        dsimp only
        rw [total_single, into_triplet]
        simp [h]

theorem cl_total (m : Mod P F) (k : OKey O K) {pto : Port P} {inp : P} (hp : m.ptoOpt = some pto)
    (hi : m.in_port_classical = some inp) (hb : Balanced (env.skeys inp)) {cs : List (Coupling P (Key O K) F)}
    (h : m.cl env k = .ok cs) (x : P × Key O K → F) (t : P × Key O K) :
    total cs x t = ((env.skeys inp).map (fun lk => if -lk = lk then 0 else m.clTerm env k pto.o inp x t lk)).sum := by
  unfold Mod.cl at h
  rw [hp, hi] at h
  rw [pair_loop_balanced (T := fun c => total c x t) hb (total_nil x t) (fun a b => total_append a b x t)
    (fun lk _ => cl_pair_total env m k pto.o inp x t lk) (fun _ _ hs => by cases hs) h]
  simp

/-- The product of the light at `k` conjugated and the sideband moved by `lk`, at the signal key `lk`. -/
def Mod.baTerm (m : Mod P F) (k : OKey O K) (out : P) (x : P × Key O K → F) (t : P × Key O K) (lk : K) : F :=
  if env.reject (k.cls + shift k.q lk) = false ∧ sn out lk = t then
    k.q.pick (m.Stdcplg * m.BAcplg) (m.StdcplgC * m.BAcplgC) / (if -lk = lk then 2 else 1) *
      x (on m.pfrom.i k.conj) * x (on m.pfrom.i (k.at (k.cls + shift k.q lk)))
  else 0

theorem ba_pair_total (m : Mod P F) (k : OKey O K) (out : P) (x : P × Key O K → F) (t : P × Key O K) (lk : K) :
    total (m.ba_pair env k out lk) x t =
      if -lk = lk then m.baTerm env k out x t lk
      else m.baTerm env k out x t lk + m.baTerm env k out x t (-lk) := by
  have one (c : F) : c / (1 : F) = c := div_one c
  unfold Mod.ba_pair Mod.baTerm sideband shift Quantum.pick
  cases k.q with
  | lower =>
    dsimp only
    by_cases hl : -lk = lk
    · rw [if_neg (not_not.2 hl), if_pos hl, if_pos hl]
      by_cases h : env.reject (k.cls + lk) = true
      · simp [h, total_nil]
      · rw [if_neg h]
        dsimp only
        rw [total_single, into_multEdge]
        simp [h]
    · have hl' : ¬ - -lk = -lk := fun h => hl (neg_inj.1 h)
      rw [if_pos hl, if_neg hl, if_neg hl, if_neg hl', total_append, one]
      congr 1
      · by_cases h : env.reject (k.cls + lk) = true
        · simp [h, total_nil]
        · rw [if_neg h]
          dsimp only
          rw [total_single, into_multEdge]
          simp [h]
      · by_cases h : env.reject (k.cls + -lk) = true
        · simp [h, total_nil]
        · rw [if_neg h]
          dsimp only
          rw [total_single, into_multEdge]
          simp [h]
  | raise =>
    dsimp only
    by_cases hl : -lk = lk
    · rw [if_neg (not_not.2 hl), if_pos hl, if_pos hl, hl]
      by_cases h : env.reject (k.cls + lk) = true
      · simp [h, total_nil]
      · rw [if_neg h]
        dsimp only
        rw [total_single, into_multEdge]
        simp [h]
    · have hl' : ¬ - -lk = -lk := fun h => hl (neg_inj.1 h)
      rw [if_pos hl, if_neg hl, if_neg hl, if_neg hl', total_append, one, add_comm, neg_neg]
      congr 1
      · by_cases h : env.reject (k.cls + -lk) = true
        · simp [h, total_nil]
        · rw [if_neg h]
          dsimp only
          rw [total_single, into_multEdge]
          simp [h]
      · by_cases h : env.reject (k.cls + lk) = true
        · simp [h, total_nil]
        · rw [if_neg h]
          dsimp only
          rw [total_single, into_multEdge]
          simp [h]

theorem ba_total (m : Mod P F) (k : OKey O K) {out : P} (ho : m.out_port_classical = some out)
    (hb : Balanced (env.skeys out)) {cs : List (Coupling P (Key O K) F)} (h : m.ba env k = .ok cs)
    (x : P × Key O K → F) (t : P × Key O K) :
    total cs x t = ((env.skeys out).map (m.baTerm env k out x t)).sum := by
  unfold Mod.ba at h
  rw [ho] at h
  rw [pair_loop_balanced (T := fun c => total c x t) (g := m.baTerm env k out x t) hb (total_nil x t)
    (fun a b => total_append a b x t) (fun lk hl => by rw [ba_pair_total, if_neg hl])
    (fun lk hl _ => by rw [ba_pair_total, if_pos hl]) h]
  simp

/-- The direct coupling. -/
def Mod.throughTerm (m : Mod P F) (k : OKey O K) (pto : P) (x : P × Key O K → F) (t : P × Key O K) : F :=
  if on pto k = t then k.q.pick m.Stdcplg m.StdcplgC * x (on m.pfrom.i k) else 0

theorem through_total (m : Mod P F) (k : OKey O K) {pto : Port P} (hp : m.ptoOpt = some pto)
    (hi : m.include_through_coupling = true) (x : P × Key O K → F) (t : P × Key O K) :
    total (m.through k) x t = m.throughTerm k pto.o x t := by
  unfold Mod.through Mod.throughTerm
  rw [hp]
  dsimp only
  rw [if_pos hi]
  unfold Quantum.pick
  cases k.q <;> exact total_single ..

/-- What the whole of `modulations_fill_2optical_2classical` contributes to a node. -/
theorem fill_total (m : Mod P F) (k : OKey O K) {cs : List (Coupling P (Key O K) F)} (h : m.fill env k = .ok cs) :
    ∃ a c, m.cl env k = .ok a ∧ m.ba env k = .ok c ∧
      ∀ x t, total cs x t = total a x t + total (m.through k) x t + total c x t := by
  unfold Mod.fill at h
  obtain ⟨a, ds, ha, h1, rfl⟩ := blocks_cons h
  obtain ⟨b, ds, hb, h2, rfl⟩ := blocks_cons h1
  obtain ⟨c, ds, hc, h3, rfl⟩ := blocks_cons h2
  obtain rfl := blocks_nil h3
  injection hb with hb
  subst hb
  refine ⟨a, c, ha, hc, fun x t => ?_⟩
  rw [total_append, total_append, total_append, total_nil, add_zero, add_assoc]

theorem fill_ok (m : Mod P F) (k : OKey O K) (hi : ∀ p, m.in_port_classical = some p → ∀ l ∈ env.skeys p, -l ∈ env.skeys p)
    (ho : ∀ p, m.out_port_classical = some p → ∀ l ∈ env.skeys p, -l ∈ env.skeys p) : ∃ cs, m.fill env k = .ok cs := by
  apply blocks_ok
  intro b hb
  simp only [List.mem_cons, List.not_mem_nil, or_false] at hb
  rcases hb with rfl | rfl | rfl
  · unfold Mod.cl
    split
    · rename_i pto inp _ h2
      exact pair_loop_ok (hi inp h2) _ _ _ _ (fun _ h => h)
    · exact ⟨[], rfl⟩
  · exact ⟨_, rfl⟩
  · unfold Mod.ba
    split
    · exact ⟨[], rfl⟩
    · rename_i out h2
      exact pair_loop_ok (ho out h2) _ _ _ _ (fun _ h => h)

/-! ## kinds of nodes -/

/-- no coupling goes to an optical node from the part that feeds signals -/
theorem ba_opt (m : Mod P F) (k : OKey O K) {cs : List (Coupling P (Key O K) F)} (h : m.ba env k = .ok cs)
    (hb : ∀ p, m.out_port_classical = some p → Balanced (env.skeys p)) (x : P × Key O K → F) (p : P) (j : OKey O K) :
    total cs x (on p j) = 0 := by
  cases ho : m.out_port_classical with
  | none =>
    unfold Mod.ba at h
    rw [ho] at h
    injection h with h
    subst h
    rfl
  | some out =>
    rw [ba_total env m k ho (hb out ho) h]
    apply List.sum_eq_zero
    intro a ha
    obtain ⟨l, _, rfl⟩ := List.mem_map.1 ha
    unfold Mod.baTerm
    rw [if_neg]
    rintro ⟨_, h⟩
    cases (congrArg Prod.snd h)

theorem cl_sig (m : Mod P F) (k : OKey O K) {cs : List (Coupling P (Key O K) F)} (h : m.cl env k = .ok cs)
    (hb : ∀ p, m.in_port_classical = some p → Balanced (env.skeys p)) (x : P × Key O K → F) (p : P) (j : K) :
    total cs x (sn p j) = 0 := by
  cases hp : m.ptoOpt with
  | none =>
    unfold Mod.cl at h
    rw [hp] at h
    injection h with h
    subst h
    rfl
  | some pto =>
    cases hi : m.in_port_classical with
    | none =>
      unfold Mod.cl at h
      rw [hp, hi] at h
      injection h with h
      subst h
      rfl
    | some inp =>
      rw [cl_total env m k hp hi (hb inp hi) h]
      apply List.sum_eq_zero
      intro a ha
      obtain ⟨l, _, rfl⟩ := List.mem_map.1 ha
      split_ifs
      · rfl
      · unfold Mod.clTerm
        rw [if_neg]
        rintro ⟨_, h⟩
        cases (congrArg Prod.snd h)

theorem through_sig (m : Mod P F) (k : OKey O K) (x : P × Key O K → F) (p : P) (j : K) :
    total (m.through k) x (sn p j) = 0 := by
  unfold Mod.through
  cases m.ptoOpt with
  | none => rfl
  | some pto =>
    dsimp only
    split_ifs
    · cases k.q <;>
      · show total [_] x (sn p j) = 0
        rw [total_single, into_edge, if_neg]
        intro h
        cases (congrArg Prod.snd h)
    · rfl

/-- nothing goes to an optical node of a port other than the output -/
theorem fill_elsewhere (m : Mod P F) (k : OKey O K) {cs : List (Coupling P (Key O K) F)} (h : m.fill env k = .ok cs)
    (hi : ∀ p, m.in_port_classical = some p → Balanced (env.skeys p))
    (ho : ∀ p, m.out_port_classical = some p → Balanced (env.skeys p)) (x : P × Key O K → F) {p : P}
    (hp : ∀ pto, m.ptoOpt = some pto → pto.o ≠ p) (j : OKey O K) : total cs x (on p j) = 0 := by
  obtain ⟨a, c, ha, hc, htot⟩ := fill_total env m k h
  rw [htot, ba_opt env m k hc ho, add_zero]
  cases hpt : m.ptoOpt with
  | none =>
    unfold Mod.cl at ha
    rw [hpt] at ha
    injection ha with ha
    subst ha
    unfold Mod.through
    rw [hpt, total_nil, zero_add]
  | some pto =>
    have h1 : total (m.through k) x (on p j) = 0 := by
      by_cases hth : m.include_through_coupling = true
      · rw [through_total m k hpt hth]
        unfold Mod.throughTerm
        rw [if_neg]
        intro h
        exact hp pto hpt (congrArg Prod.fst h)
      · unfold Mod.through
        rw [hpt]
        dsimp only
        rw [if_neg hth]
        rfl
    rw [h1, add_zero]
    cases hin : m.in_port_classical with
    | none =>
      unfold Mod.cl at ha
      rw [hpt, hin] at ha
      injection ha with ha
      subst ha
      rfl
    | some inp =>
      rw [cl_total env m k hpt hin (hi inp hin) ha]
      apply List.sum_eq_zero
      intro v hv
      obtain ⟨l, _, rfl⟩ := List.mem_map.1 hv
      split_ifs
      · rfl
      · unfold Mod.clTerm
        rw [if_neg]
        rintro ⟨_, h⟩
        exact hp pto hpt (congrArg Prod.fst h)

/-! ## edges that keep the key -/

theorem edges_total {ks : List (OKey O K)} (hn : ks.Nodup) (p q : P) (v : OKey O K → F) (x : P × Key O K → F) (r : P)
    (j : OKey O K) : total (ks.map (fun k => Coupling.edge (on p k) (on q k) (v k))) x (on r j) =
      if q = r ∧ j ∈ ks then v j * x (on p j) else 0 := by
  rw [total_map, ← List.sum_toFinset _ hn]
  by_cases h : q = r ∧ j ∈ ks
  · obtain ⟨rfl, hj⟩ := h
    rw [if_pos ⟨rfl, hj⟩, Finset.sum_eq_single j, into_edge, if_pos rfl]
    · intro k _ hk
      rw [into_edge, if_neg]
      intro h
      injection h with _ h
      injection h with h
      exact hk h
    · intro h
      exact absurd (List.mem_toFinset.2 hj) h
  · rw [if_neg h, Finset.sum_eq_zero]
    intro k hk
    rw [into_edge, if_neg]
    intro h'
    injection h' with h1 h'
    injection h' with h2
    exact h ⟨h1, h2 ▸ List.mem_toFinset.1 hk⟩

theorem edges_sig (ks : List (OKey O K)) (p q : P) (v : OKey O K → F) (x : P × Key O K → F) (r : P)
    (j : K) : total (ks.map (fun k => Coupling.edge (on p k) (on q k) (v k))) x (sn r j) = 0 := by
  rw [total_map]
  apply List.sum_eq_zero
  intro a ha
  obtain ⟨k, _, rfl⟩ := List.mem_map.1 ha
  rw [into_edge, if_neg]
  intro h
  cases (congrArg Prod.snd h)

end Optics
