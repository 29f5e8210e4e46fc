import Mathlib.Algebra.BigOperators.Field
import Verif.Shot.Basic

/-!
# C85: the linear response of photodiodes
-/

set_option linter.unusedSectionVars false

namespace Shot
open Py Inject Circuit Optics
open Signal (Balanced)

variable {P O K F : Type} [DecidableEq P] [DecidableEq O] [DecidableEq K] [AddCommGroup K] [Field F] [StarRing F]
  [DecidableEq F]
variable (env : OEnv P O K F) (sol : SolVec P (Key O K) F)

/-- the response at the signal key `lk` to the sideband of `k` -/
def baGain (m : Mod P F) (k : OKey O K) (out : P) (d t : P × Key O K) (lk : K) : F :=
  if env.reject (k.cls + shift k.q lk) = false ∧ on m.pfrom.i (k.at (k.cls + shift k.q lk)) = d ∧ sn out lk = t then
    k.q.pick (m.Stdcplg * m.BAcplg) (m.StdcplgC * m.BAcplgC) / (if -lk = lk then 2 else 1) *
      getd sol (on m.pfrom.i k.conj) 0
  else 0

theorem ba_pair_gain (m : Mod P F) (k : OKey O K) (out : P) (d t : P × Key O K) (lk : K) :
    linearGain sol (m.ba_pair env k out lk) d t =
      if -lk = lk then baGain env sol m k out d t lk
      else baGain env sol m k out d t lk + baGain env sol m k out d t (-lk) := by
  have one (c : F) : c / (1 : F) = c := div_one c
  unfold Mod.ba_pair baGain sideband shift Quantum.pick
  cases k.q with
  | lower =>
    dsimp only
    by_cases hl : -lk = lk
    · rw [if_neg (not_not.2 hl), if_pos hl, if_pos hl]
      by_cases h : env.reject (k.cls + lk) = true
      · simp [h, linearGain_nil]
      · rw [if_neg h]
        dsimp only
        rw [linearGain_multEdge]
        simp [h]
    · have hl' : ¬ - -lk = -lk := fun h => hl (neg_inj.1 h)
      rw [if_pos hl, if_neg hl, if_neg hl, if_neg hl', linearGain_append, one]
      congr 1
      · by_cases h : env.reject (k.cls + lk) = true
        · simp [h, linearGain_nil]
        · rw [if_neg h]
          dsimp only
          rw [linearGain_multEdge]
          simp [h]
      · by_cases h : env.reject (k.cls + -lk) = true
        · simp [h, linearGain_nil]
        · rw [if_neg h]
          dsimp only
          rw [linearGain_multEdge]
          simp [h]
  | raise =>
    dsimp only
    by_cases hl : -lk = lk
    · rw [if_neg (not_not.2 hl), if_pos hl, if_pos hl, hl]
      by_cases h : env.reject (k.cls + lk) = true
      · simp [h, linearGain_nil]
      · rw [if_neg h]
        dsimp only
        rw [linearGain_multEdge]
        simp [h]
    · have hl' : ¬ - -lk = -lk := fun h => hl (neg_inj.1 h)
      rw [if_pos hl, if_neg hl, if_neg hl, if_neg hl', linearGain_append, one, add_comm, neg_neg]
      congr 1
      · by_cases h : env.reject (k.cls + -lk) = true
        · simp [h, linearGain_nil]
        · rw [if_neg h]
          dsimp only
          rw [linearGain_multEdge]
          simp [h]
      · by_cases h : env.reject (k.cls + lk) = true
        · simp [h, linearGain_nil]
        · rw [if_neg h]
          dsimp only
          rw [linearGain_multEdge]
          simp [h]

theorem ba_gain (m : Mod P F) (k : OKey O K) {out : P} (ho : m.out_port_classical = some out)
    (hb : Balanced (env.skeys out)) {cs : List (Coupling P (Key O K) F)} (h : m.ba env k = .ok cs) (d t : P × Key O K) :
    linearGain sol cs d t = ((env.skeys out).map (baGain env sol m k out d t)).sum := by
  unfold Mod.ba at h
  rw [ho] at h
  rw [pair_loop_balanced (T := fun c => linearGain sol c d t) (g := baGain env sol m k out d t) hb
    (linearGain_nil sol d t) (fun a b => linearGain_append sol a b d t) (fun lk hl => by rw [ba_pair_gain, if_neg hl])
    (fun lk hl _ => by rw [ba_pair_gain, if_pos hl]) h]
  simp

/-- the modulation a photodiode is -/
def pdMod (po_Fr : Port P) (BA Wpd : P) : Mod P F :=
  ⟨po_Fr, none, some BA, some Wpd, 1, 1, env.i, -env.i, 1, 1, true⟩

theorem pd_gain (po_Fr : Port P) (BA Wpd : P) (hW : Balanced (env.skeys Wpd)) {cs : List (Coupling P (Key O K) F)}
    (h : pd_setup env po_Fr BA Wpd = .ok cs) (d t : P × Key O K) :
    linearGain sol cs d t = ((env.okeys po_Fr.i).map (fun k =>
      ((env.skeys Wpd).map (baGain env sol (pdMod env po_Fr BA Wpd) k Wpd d t)).sum)).sum := by
  unfold pd_setup at h
  refine linearGain_blocks sol h ?_
  intro k _ ds hd
  unfold Mod.fill at hd
  obtain ⟨c1, d1, h1, hd1, rfl⟩ := blocks_cons hd
  obtain ⟨c2, d2, h2, hd2, rfl⟩ := blocks_cons hd1
  obtain ⟨c3, d3, h3, hd3, rfl⟩ := blocks_cons hd2
  obtain rfl := blocks_nil hd3
  have e1 : c1 = [] := by
    change Except.ok [] = Except.ok c1 at h1
    injection h1 with h1
    exact h1.symm
  have e2 : c2 = [] := by
    change Except.ok [] = Except.ok c2 at h2
    injection h2 with h2
    exact h2.symm
  subst e1 e2
  rw [List.nil_append, List.nil_append, List.append_nil]
  exact ba_gain env sol (pdMod env po_Fr BA Wpd) k rfl hW h3 d t

/-- the light that beats with the light at `k` to give `δ` -/
def partner (k : OKey O K) (δ : K) : OKey O K := k.conj.at (k.cls - shift k.q δ)

theorem pd_elsewhere (po_Fr : Port P) (BA Wpd : P) (hW : Balanced (env.skeys Wpd)) {cs : List (Coupling P (Key O K) F)}
    (h : pd_setup env po_Fr BA Wpd = .ok cs) {d t : P × Key O K}
    (hdt : ∀ k ∈ env.okeys po_Fr.i, ∀ δ ∈ env.skeys Wpd, ¬(env.reject (k.cls + shift k.q δ) = false ∧
      on po_Fr.i (k.at (k.cls + shift k.q δ)) = d ∧ sn Wpd δ = t)) : linearGain sol cs d t = 0 := by
  rw [pd_gain env sol po_Fr BA Wpd hW h]
  apply List.sum_eq_zero
  intro y hy
  obtain ⟨k, hk, rfl⟩ := List.mem_map.1 hy
  apply List.sum_eq_zero
  intro z hz
  obtain ⟨δ, hδ, rfl⟩ := List.mem_map.1 hz
  exact if_neg (hdt k hk δ hδ)

theorem pd_response (ht : ∀ k : K, -k = k → k = 0) (po_Fr : Port P) (BA Wpd : P) (hn : (env.okeys po_Fr.i).Nodup)
    (hconj : ∀ k ∈ env.okeys po_Fr.i, ({ k with q := k.q.conj } : OKey O K) ∈ env.okeys po_Fr.i)
    (hW : Balanced (env.skeys Wpd))
    {cs : List (Coupling P (Key O K) F)} (h : pd_setup env po_Fr BA Wpd = .ok cs)
    (hsol : ∀ k, k ∉ env.okeys po_Fr.i → getd sol (po_Fr.i, .opt k) 0 = 0) {δ : K} (hδ : δ ∈ env.skeys Wpd)
    (j : OKey O K) (hj : env.reject j.cls = false) : linearGain sol cs (on po_Fr.i j) (sn Wpd δ) =
      getd sol (on po_Fr.i (partner j δ)) 0 / (if δ = 0 then 2 else 1) := by
  rw [pd_gain env sol po_Fr BA Wpd hW h]
  have h1 : ∀ k : OKey O K, ((env.skeys Wpd).map (baGain env sol (pdMod env po_Fr BA Wpd) k Wpd (on po_Fr.i j) (sn Wpd δ))).sum =
      if k = (partner j δ).conj then getd sol (on po_Fr.i (partner j δ)) 0 / (if δ = 0 then 2 else 1) else 0 := by
    intro k
    rw [← List.sum_toFinset _ hW.1, Finset.sum_eq_single δ]
    · unfold baGain
      have hiff : (on po_Fr.i (k.at (k.cls + shift k.q δ)) = on po_Fr.i j) ↔ k = (partner j δ).conj := by
        obtain ⟨ko, kc, kp, kq⟩ := k
        obtain ⟨jo, jc, jp, jq⟩ := j
        have h0 : (on po_Fr.i (OKey.at ⟨ko, kc, kp, kq⟩ (kc + shift kq δ)) = on po_Fr.i ⟨jo, jc, jp, jq⟩) ↔
            (ko = jo ∧ kc + shift kq δ = jc ∧ kp = jp ∧ kq = jq) := by
          constructor
          · intro h
            injection h with _ h
            injection h with h
            injection h with h1 h2 h3 h4
            exact ⟨h1, h2, h3, h4⟩
          · rintro ⟨rfl, rfl, rfl, rfl⟩
            rfl
        refine h0.trans ?_
        unfold partner OKey.conj OKey.at
        rw [OKey.mk.injEq, Quantum.conj_conj]
        constructor
        · rintro ⟨rfl, rfl, rfl, rfl⟩
          exact ⟨rfl, (add_sub_cancel_right kc _).symm, rfl, rfl⟩
        · rintro ⟨rfl, rfl, rfl, rfl⟩
          exact ⟨rfl, sub_add_cancel jc _, rfl, rfl⟩
      by_cases hk : k = (partner j δ).conj
      · have hat := hiff.2 hk
        have hcls : k.at (k.cls + shift k.q δ) = j := by
          injection hat with _ h
          injection h
        have hrej : env.reject (k.cls + shift k.q δ) = false := by
          have := hj
          rw [← hcls] at this
          exact this
        rw [if_pos ⟨hrej, hat, rfl⟩, if_pos hk, hk, OKey.conj_conj]
        have h2 : (if -δ = δ then (2 : F) else 1) = if δ = 0 then 2 else 1 := by
          by_cases h0 : δ = 0
          · rw [if_pos h0, if_pos (by rw [h0, neg_zero])]
          · rw [if_neg h0, if_neg (fun h => h0 (ht δ h))]
        rw [h2]
        have h3 : ∀ q : Quantum, q.pick ((1 : F) * 1) (1 * 1) = 1 := by intro q; cases q <;> exact one_mul 1
        change (Quantum.pick _ ((1 : F) * 1) (1 * 1)) / _ * _ = _
        rw [h3, one_div_mul_eq_div]
        rfl
      · rw [if_neg hk, if_neg]
        rintro ⟨-, h, -⟩
        exact hk (hiff.1 h)
    · intro l _ hl
      refine if_neg ?_
      rintro ⟨-, -, h⟩
      injection h with _ h
      injection h with h
      exact hl h
    · intro h
      exact absurd (List.mem_toFinset.2 hδ) h
  rw [List.map_congr_left (fun k _ => h1 k), ← List.sum_toFinset _ hn, Finset.sum_ite_eq' (env.okeys po_Fr.i).toFinset]
  by_cases hm : (partner j δ).conj ∈ (env.okeys po_Fr.i).toFinset
  · rw [if_pos hm]
  · rw [if_neg hm]
    have hz : getd sol (on po_Fr.i (partner j δ)) 0 = 0 := hsol (partner j δ) (fun hp =>
      hm (List.mem_toFinset.2 (hconj _ hp)))
    rw [hz, zero_div]

/-- **C85.**  In the linear system built on a solution, a photodiode responds at the frequency `δ` to the light at the key
`k` with the amplitude of the solution at the conjugate key which lies `δ` below (for lowering fields) or above (for raising
fields); at zero frequency with half of it. -/
theorem C85_response (ht : ∀ k : K, -k = k → k = 0) (po_Fr : Port P) (BA Wpd : P) (hn : (env.okeys po_Fr.i).Nodup)
    (hconj : ∀ k ∈ env.okeys po_Fr.i, ({ k with q := k.q.conj } : OKey O K) ∈ env.okeys po_Fr.i)
    (hr : ∀ k ∈ env.okeys po_Fr.i, env.reject k.cls = false) (hW : Balanced (env.skeys Wpd))
    {cs : List (Coupling P (Key O K) F)} (h : pd_setup env po_Fr BA Wpd = .ok cs)
    (hsol : ∀ k, k ∉ env.okeys po_Fr.i → getd sol (po_Fr.i, .opt k) 0 = 0) {δ : K} (hδ : δ ∈ env.skeys Wpd)
    {o : O} {f : K} {p : Pol} :
    ((⟨o, f, p, .lower⟩ : OKey O K) ∈ env.okeys po_Fr.i →
      (cs.map (fun c => (c.inj.edges.map (fun e =>
        if e.1 = ((po_Fr.i, .opt ⟨o, f, p, .lower⟩), (Wpd, .sig δ)) then evalD sol e.2 else 0)).sum)).sum =
      getd sol (po_Fr.i, .opt ⟨o, f - δ, p, .raise⟩) 0 / (if δ = 0 then 2 else 1)) ∧
    ((⟨o, f, p, .raise⟩ : OKey O K) ∈ env.okeys po_Fr.i →
      (cs.map (fun c => (c.inj.edges.map (fun e =>
        if e.1 = ((po_Fr.i, .opt ⟨o, f, p, .raise⟩), (Wpd, .sig δ)) then evalD sol e.2 else 0)).sum)).sum =
      getd sol (po_Fr.i, .opt ⟨o, f + δ, p, .lower⟩) 0 / (if δ = 0 then 2 else 1)) := by
  have key : ∀ j : OKey O K, j ∈ env.okeys po_Fr.i → linearGain sol cs (on po_Fr.i j) (sn Wpd δ) =
      getd sol (on po_Fr.i (partner j δ)) 0 / (if δ = 0 then 2 else 1) :=
    fun j hj => pd_response env sol ht po_Fr BA Wpd hn hconj hW h hsol hδ j (hr j hj)
  refine ⟨fun hj => (key _ hj).trans ?_, fun hj => (key _ hj).trans ?_⟩
  · rfl
  · unfold partner shift
    rw [sub_neg_eq_add]
    rfl

/-- nothing else drives the photodiode, and it drives nothing else -/
theorem C85_only (po_Fr : Port P) (BA Wpd : P) (hW : Balanced (env.skeys Wpd))
    {cs : List (Coupling P (Key O K) F)} (h : pd_setup env po_Fr BA Wpd = .ok cs) {d t : P × Key O K}
    (hdt : (cs.map (fun c => (c.inj.edges.map (fun e => if e.1 = (d, t) then evalD sol e.2 else 0)).sum)).sum ≠ 0) :
    (∃ k, d = (po_Fr.i, .opt k) ∧ env.reject k.cls = false) ∧ ∃ δ ∈ env.skeys Wpd, t = (Wpd, .sig δ) := by
  by_contra hne
  refine hdt (pd_elsewhere env sol po_Fr BA Wpd hW h ?_)
  rintro k - δ hδ ⟨h1, rfl, rfl⟩
  exact hne ⟨⟨_, rfl, h1⟩, δ, hδ, rfl⟩

/-- the response to the fluctuations `y`, as sums over the pairs of keys which beat -/
theorem response_sum (ht : ∀ k : K, -k = k → k = 0) (po_Fr : Port P) (BA Wpd : P) (hn : (env.okeys po_Fr.i).Nodup)
    (hconj : ∀ k ∈ env.okeys po_Fr.i, ({ k with q := k.q.conj } : OKey O K) ∈ env.okeys po_Fr.i)
    (hr : ∀ k ∈ env.okeys po_Fr.i, env.reject k.cls = false) (hW : Balanced (env.skeys Wpd))
    {cs : List (Coupling P (Key O K) F)} (h : pd_setup env po_Fr BA Wpd = .ok cs)
    (hsol : ∀ k, k ∉ env.okeys po_Fr.i → getd sol (po_Fr.i, .opt k) 0 = 0) {δ : K} (hδ : δ ∈ env.skeys Wpd)
    (y : OKey O K → F) :
    ∑ k ∈ (env.okeys po_Fr.i).toFinset, (cs.map (fun c => (c.inj.edges.map (fun e =>
        if e.1 = ((po_Fr.i, .opt k), (Wpd, .sig δ)) then evalD sol e.2 else 0)).sum)).sum * y k =
      (∑ a ∈ (env.okeys po_Fr.i).toFinset, ∑ b ∈ (env.okeys po_Fr.i).toFinset,
        (if Beat δ a b then getd sol (po_Fr.i, .opt b) 0 * y a else 0) +
      ∑ a ∈ (env.okeys po_Fr.i).toFinset, ∑ b ∈ (env.okeys po_Fr.i).toFinset,
        (if Beat δ a b then getd sol (po_Fr.i, .opt a) 0 * y b else 0)) / (if δ = 0 then 2 else 1) := by
  set ks := env.okeys po_Fr.i with hks
  set s : OKey O K → F := fun k => getd sol (po_Fr.i, .opt k) 0 with hs
  change _ = (∑ a ∈ ks.toFinset, ∑ b ∈ ks.toFinset, (if Beat δ a b then s b * y a else 0) +
      ∑ a ∈ ks.toFinset, ∑ b ∈ ks.toFinset, (if Beat δ a b then s a * y b else 0)) / _
  rw [Finset.sum_comm (s := ks.toFinset) (t := ks.toFinset) (f := fun a b => if Beat δ a b then s a * y b else 0),
    ← Finset.sum_add_distrib, Finset.sum_div]
  apply Finset.sum_congr rfl
  intro k hk
  have hk' := List.mem_toFinset.1 hk
  obtain ⟨o, f, p, q⟩ := k
  have hval : ∀ j : OKey O K, s j = ∑ a ∈ ks.toFinset, if a = j then s a else 0 := by
    intro j
    by_cases hj : j ∈ ks
    · rw [Finset.sum_ite_eq' ks.toFinset j s, if_pos (List.mem_toFinset.2 hj)]
    · rw [Finset.sum_ite_eq' ks.toFinset j s, if_neg (fun h => hj (List.mem_toFinset.1 h))]
      exact hsol j hj
  obtain ⟨r1, r2⟩ := C85_response env sol ht po_Fr BA Wpd hn hconj hr hW h hsol hδ (o := o) (f := f) (p := p)
  cases q with
  | lower =>
    rw [r1 hk']
    have e2 : ∑ a ∈ ks.toFinset, (if Beat δ a (⟨o, f, p, .lower⟩ : OKey O K) then s a * y ⟨o, f, p, .lower⟩ else 0) = 0 := by
      apply Finset.sum_eq_zero
      intro a _
      exact if_neg (fun h => by cases h.2.1)
    rw [e2, add_zero, div_mul_eq_mul_div]
    congr 1
    rw [show getd sol (po_Fr.i, Key.opt ⟨o, f - δ, p, .raise⟩) 0 = s ⟨o, f - δ, p, .raise⟩ from rfl, hval,
      Finset.sum_mul]
    apply Finset.sum_congr rfl
    rintro ⟨bo, bf, bp, bq⟩ _
    have : (⟨bo, bf, bp, bq⟩ : OKey O K) = ⟨o, f - δ, p, .raise⟩ ↔ Beat δ ⟨o, f, p, .lower⟩ ⟨bo, bf, bp, bq⟩ := by
      rw [OKey.mk.injEq]
      unfold Beat
      constructor
      · rintro ⟨rfl, rfl, rfl, rfl⟩
        exact ⟨rfl, rfl, rfl, rfl, (sub_add_cancel f δ).symm⟩
      · rintro ⟨-, h2, h3, h4, h5⟩
        dsimp only at h2 h3 h4 h5
        exact ⟨h3.symm, by rw [h5, add_sub_cancel_right], h4.symm, h2⟩
    rw [ite_mul, zero_mul]
    simp only [this]
  | raise =>
    rw [r2 hk']
    have e2 : ∑ a ∈ ks.toFinset, (if Beat δ (⟨o, f, p, .raise⟩ : OKey O K) a then s a * y ⟨o, f, p, .raise⟩ else 0) = 0 := by
      apply Finset.sum_eq_zero
      intro a _
      exact if_neg (fun h => by cases h.1)
    rw [e2, zero_add, div_mul_eq_mul_div]
    congr 1
    rw [show getd sol (po_Fr.i, Key.opt ⟨o, f + δ, p, .lower⟩) 0 = s ⟨o, f + δ, p, .lower⟩ from rfl, hval,
      Finset.sum_mul]
    apply Finset.sum_congr rfl
    rintro ⟨bo, bf, bp, bq⟩ _
    have : (⟨bo, bf, bp, bq⟩ : OKey O K) = ⟨o, f + δ, p, .lower⟩ ↔ Beat δ ⟨bo, bf, bp, bq⟩ ⟨o, f, p, .raise⟩ := by
      rw [OKey.mk.injEq]
      unfold Beat
      constructor
      · rintro ⟨rfl, rfl, rfl, rfl⟩
        exact ⟨rfl, rfl, rfl, rfl, rfl⟩
      · rintro ⟨h1, -, h3, h4, h5⟩
        exact ⟨h3, h5, h4, h1⟩
    rw [ite_mul, zero_mul]
    simp only [this]

/-- **C85.**  The linear response of the photodiode at a frequency `δ` other than zero is the change of the power of the
light in first order: when `ε y` is added to the fields of the solution, the coefficient of the power at `δ`, the sum of all
products of a lowering and a raising amplitude that lie `δ` apart, changes by `ε` times the response to `y`, up to the square
of `ε`. -/
theorem C85_first_order (ht : ∀ k : K, -k = k → k = 0) (po_Fr : Port P) (BA Wpd : P) (hn : (env.okeys po_Fr.i).Nodup)
    (hconj : ∀ k ∈ env.okeys po_Fr.i, ({ k with q := k.q.conj } : OKey O K) ∈ env.okeys po_Fr.i)
    (hr : ∀ k ∈ env.okeys po_Fr.i, env.reject k.cls = false) (hW : Balanced (env.skeys Wpd))
    {cs : List (Coupling P (Key O K) F)} (h : pd_setup env po_Fr BA Wpd = .ok cs)
    (hsol : ∀ k, k ∉ env.okeys po_Fr.i → getd sol (po_Fr.i, .opt k) 0 = 0) {δ : K} (hδ : δ ∈ env.skeys Wpd) (h0 : δ ≠ 0)
    {power : (OKey O K → F) → F}
    (hpower : ∀ z, power z = ∑ a ∈ (env.okeys po_Fr.i).toFinset, ∑ b ∈ (env.okeys po_Fr.i).toFinset,
      if a.q = .lower ∧ b.q = .raise ∧ a.opt = b.opt ∧ a.pol = b.pol ∧ a.cls = b.cls + δ then z a * z b else 0)
    (y : OKey O K → F) (ε : F) :
    power (fun k => getd sol (po_Fr.i, .opt k) 0 + ε * y k) =
      power (fun k => getd sol (po_Fr.i, .opt k) 0) +
      ε * ∑ k ∈ (env.okeys po_Fr.i).toFinset, (cs.map (fun c => (c.inj.edges.map (fun e =>
        if e.1 = ((po_Fr.i, .opt k), (Wpd, .sig δ)) then evalD sol e.2 else 0)).sum)).sum * y k +
      ε ^ 2 * power y := by
  set ks := env.okeys po_Fr.i with hks
  set s : OKey O K → F := fun k => getd sol (po_Fr.i, .opt k) 0 with hs
  have hlin := response_sum env sol ht po_Fr BA Wpd hn hconj hr hW h hsol hδ y
  rw [if_neg h0, div_one] at hlin
  rw [hlin, hpower, hpower, hpower]
  change _ = ∑ a ∈ ks.toFinset, ∑ b ∈ ks.toFinset, (if Beat δ a b then s a * s b else 0) + _ +
    _ * ∑ a ∈ ks.toFinset, ∑ b ∈ ks.toFinset, (if Beat δ a b then y a * y b else 0)
  change ∑ a ∈ ks.toFinset, ∑ b ∈ ks.toFinset, (if Beat δ a b then (s a + ε * y a) * (s b + ε * y b) else 0) = _
  rw [← Finset.sum_add_distrib, Finset.mul_sum, Finset.mul_sum, ← Finset.sum_add_distrib, ← Finset.sum_add_distrib]
  apply Finset.sum_congr rfl
  intro a _
  rw [← Finset.sum_add_distrib, Finset.mul_sum, Finset.mul_sum, ← Finset.sum_add_distrib, ← Finset.sum_add_distrib]
  apply Finset.sum_congr rfl
  intro b _
  split_ifs
  · ring
  · ring

end Shot
