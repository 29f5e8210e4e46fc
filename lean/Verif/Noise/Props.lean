import Verif.Noise.Basic

/-!
# C77: the noise readout adds up every inserted pair once
-/

set_option linter.unusedSectionVars false

namespace Noise
open Py

variable {P K O Nm : Type} [DecidableEq P] [DecidableEq K] [DecidableEq O] [DecidableEq Nm]

section Fold

/-- the spectra of all pairs of ports as a dictionary of contributions -/
def table (adjust : ℂ) (S : Pair P K O → ℂ) (nmap : NMap P K O) (kP kN : Dict Nm (Dict (P × K) ℂ)) :
    Dict (Nm × Nm) (List (O × ℂ)) :=
  kP.flatMap (fun a => kN.map (fun b => ((a.1, b.1), contrib adjust S nmap a.1 b.1 a.2 b.2)))

/-- one entry of the table -/
def enterQ (st : Builds O Nm) (q : (Nm × Nm) × List (O × ℂ)) : Builds O Nm :=
  ⟨(q.2.foldl (add1 q.1) (0, st.ncollect)).2, Dict.set st.nsums q.1 (q.2.foldl (add1 q.1) (0, st.ncollect)).1⟩

theorem builds_eq (port_map : Dict Nm P) (keyP keyN : K) (adjust : ℂ) (S : Pair P K O → ℂ)
    (cm : Dict ((P × K) × (P × K)) ℂ) (nmap : NMap P K O) :
    CSD_builds port_map keyP keyN adjust S cm nmap =
      (table adjust S nmap (kvecs (views port_map keyP) cm) (kvecs (views port_map keyN) cm)).foldl enterQ
        ⟨[], nsums_init port_map⟩ := by
  unfold CSD_builds table
  rw [List.foldl_flatMap]
  dsimp only
  congr 1
  funext st a
  rw [List.foldl_map]
  congr 1
  funext st b
  unfold enterQ
  rw [over_nodes_eq]

theorem get?_append {A V : Type} [DecidableEq A] (d e : Dict A V) (k : A) :
    Dict.get? (d ++ e) k = (Dict.get? d k).or (Dict.get? e k) := by
  induction d with
  | nil => rfl
  | cons x d ih =>
    rw [List.cons_append, Dict.get?_cons, Dict.get?_cons, ih]
    split_ifs <;> rfl

theorem table_get (adjust : ℂ) (S : Pair P K O → ℂ) (nmap : NMap P K O) (kP kN : Dict Nm (Dict (P × K) ℂ)) (a b : Nm) :
    Dict.get? (table adjust S nmap kP kN) (a, b) =
      (Dict.get? kP a).bind (fun u => (Dict.get? kN b).map (fun v => contrib adjust S nmap a b u v)) := by
  have row : ∀ (x : Nm × Dict (P × K) ℂ) (kN : Dict Nm (Dict (P × K) ℂ)),
      Dict.get? (kN.map (fun y => ((x.1, y.1), contrib adjust S nmap x.1 y.1 x.2 y.2))) (a, b) =
      if x.1 = a then (Dict.get? kN b).map (fun v => contrib adjust S nmap a b x.2 v) else none := by
    intro x kN
    induction kN with
    | nil => simp
    | cons y kN ih =>
      rw [List.map_cons, Dict.get?_cons, ih, Dict.get?_cons]
      dsimp only
      by_cases hx : x.1 = a
      · by_cases hy : y.1 = b
        · rw [if_pos (by rw [hx, hy]), if_pos hx, if_pos hy, hx, hy]
          rfl
        · rw [if_neg (by rw [Prod.mk.injEq]; exact fun h => hy h.2), if_pos hx, if_neg hy, if_pos hx]
      · rw [if_neg (by rw [Prod.mk.injEq]; exact fun h => hx h.1), if_neg hx, if_neg hx]
  unfold table
  induction kP with
  | nil => rfl
  | cons x kP ih =>
    rw [List.flatMap_cons, get?_append, ih, row, Dict.get?_cons]
    by_cases hx : x.1 = a
    · rw [if_pos hx, if_pos hx, Option.bind_some]
      cases Dict.get? kN b with
      | none => cases Dict.get? kP a <;> rfl
      | some v => rfl
    · rw [if_neg hx, if_neg hx]
      rfl

theorem table_WF (adjust : ℂ) (S : Pair P K O → ℂ) (nmap : NMap P K O) {kP kN : Dict Nm (Dict (P × K) ℂ)}
    (hP : Dict.WF kP) (hN : Dict.WF kN) : Dict.WF (table adjust S nmap kP kN) := by
  have : Dict.keys (table adjust S nmap kP kN) = (Dict.keys kP).flatMap (fun a => (Dict.keys kN).map (fun b => (a, b))) := by
    unfold table Dict.keys
    rw [List.map_flatMap, List.flatMap_map]
    congr 1
    funext a
    rw [List.map_map, List.map_map]
    rfl
  unfold Dict.WF
  rw [this]
  exact List.Nodup.product hP hN

/-- all a source has collected for a pair of ports, summed over the sources -/
def collected (nc : Dict O (Dict (Nm × Nm) ℂ)) (ab : Nm × Nm) : ℂ := (nc.map (fun e => (Dict.get? e.2 ab).getD 0)).sum

theorem collected_collect (nc : Dict O (Dict (Nm × Nm) ℂ)) (o : O) (ab ab' : Nm × Nm) (v : ℂ) :
    collected (collect nc o ab v) ab' = collected nc ab' + if ab = ab' then v else 0 := by
  have hset : ∀ (d : Dict (Nm × Nm) ℂ), (Dict.get? (Dict.set d ab ((Dict.get? d ab).getD 0 + v)) ab').getD 0 =
      (Dict.get? d ab').getD 0 + if ab = ab' then v else 0 := by
    intro d
    rw [Dict.get?_set]
    by_cases h : ab = ab'
    · subst h
      simp
    · simp [h]
  unfold collect
  dsimp only
  induction nc with
  | nil =>
    change collected [(o, _)] ab' = _
    unfold collected
    rw [List.map_singleton, List.sum_singleton]
    exact hset []
  | cons e nc ih =>
    obtain ⟨o', d⟩ := e
    rw [Dict.get?_cons]
    dsimp only
    by_cases ho : o' = o
    · rw [if_pos ho, Dict.set, if_pos ho]
      unfold collected
      rw [List.map_cons, List.sum_cons, List.map_cons, List.sum_cons]
      dsimp only
      rw [Option.getD_some, hset]
      ring
    · rw [if_neg ho, Dict.set, if_neg ho]
      unfold collected at ih ⊢
      rw [List.map_cons, List.sum_cons, List.map_cons, List.sum_cons, ih]
      ring

theorem fold_collected (ab ab' : Nm × Nm) (L : List (O × ℂ)) (st : ℂ × Dict O (Dict (Nm × Nm) ℂ)) :
    collected (L.foldl (add1 ab) st).2 ab' =
      collected st.2 ab' + if ab = ab' then (L.map Prod.snd).sum else 0 := by
  induction L generalizing st with
  | nil => simp
  | cons ov L ih =>
    rw [List.foldl_cons, ih, List.map_cons, List.sum_cons]
    unfold add1
    dsimp only
    rw [collected_collect]
    split_ifs <;> ring

/-- the outer loops -/
theorem table_fold {Q : Dict (Nm × Nm) (List (O × ℂ))} (hQ : Dict.WF Q) (st : Builds O Nm) (ab : Nm × Nm) :
    Dict.get? (Q.foldl enterQ st).nsums ab =
      (match Dict.get? Q ab with
        | some L => some (L.map Prod.snd).sum
        | none => Dict.get? st.nsums ab) ∧
    collected (Q.foldl enterQ st).ncollect ab =
      collected st.ncollect ab + (((Dict.get? Q ab).getD []).map Prod.snd).sum ∧
    ∀ o, (look (Q.foldl enterQ st).ncollect o ab).getD 0 =
      (look st.ncollect o ab).getD 0 +
        (((Dict.get? Q ab).getD []).map (fun ov => if ov.1 = o then ov.2 else 0)).sum := by
  induction Q generalizing st with
  | nil => simp
  | cons q Q ih =>
    obtain ⟨k, L⟩ := q
    unfold Dict.WF Dict.keys at hQ
    rw [List.map_cons, List.nodup_cons] at hQ
    have hn : Dict.get? Q k = none := (Dict.get?_eq_none_iff Q k).2 hQ.1
    rw [List.foldl_cons]
    obtain ⟨h1, h2, h3⟩ := ih hQ.2 (enterQ st (k, L))
    obtain ⟨f1, f2⟩ := fold_add1 k L (0, st.ncollect)
    have e1 : (enterQ st (k, L)).nsums = Dict.set st.nsums k (L.map Prod.snd).sum := by
      unfold enterQ
      dsimp only
      rw [f1, zero_add]
    have e2 : collected (enterQ st (k, L)).ncollect ab =
        collected st.ncollect ab + if k = ab then (L.map Prod.snd).sum else 0 :=
      fold_collected k ab L (0, st.ncollect)
    have e3 : ∀ o, (look (enterQ st (k, L)).ncollect o ab).getD 0 =
        (look st.ncollect o ab).getD 0 + if k = ab then (L.map (fun ov => if ov.1 = o then ov.2 else 0)).sum else 0 :=
      fun o => f2 o ab
    rw [h1, h2, e1, e2, Dict.get?_cons]
    by_cases hk : k = ab
    · subst hk
      rw [hn]
      refine ⟨by simp, by simp, fun o => ?_⟩
      rw [h3, hn, e3]
      simp
    · dsimp only
      rw [if_neg hk, if_neg hk]
      refine ⟨?_, by simp, fun o => ?_⟩
      · rw [Dict.get?_set_ne _ _ hk]
      · rw [h3, e3, if_neg hk, add_zero]

theorem nsums_init_get (port_map : Dict Nm P) {a b : Nm} (ha : a ∈ Dict.keys port_map) (hb : b ∈ Dict.keys port_map) :
    Dict.get? (nsums_init port_map) (a, b) = some 0 := by
  have inner : ∀ (m : Dict Nm P) (x : Nm) (d : Dict (Nm × Nm) ℂ) (k : Nm × Nm),
      Dict.get? (m.foldl (fun d e2 => Dict.set d (x, e2.1) 0) d) k =
      if k.1 = x ∧ k.2 ∈ Dict.keys m then some 0 else Dict.get? d k := by
    intro m
    induction m with
    | nil => intro x d k; simp [Dict.keys]
    | cons e m ih =>
      intro x d k
      rw [List.foldl_cons, ih, Dict.get?_set]
      obtain ⟨k1, k2⟩ := k
      simp only [Dict.keys, List.map_cons, List.mem_cons, Prod.mk.injEq]
      by_cases h1 : k1 = x
      · subst h1
        by_cases h2 : k2 ∈ m.map Prod.fst
        · simp [h2]
        · by_cases h3 : e.1 = k2
          · simp [h3]
          · simp [h2, h3, Ne.symm h3]
      · simp [h1, Ne.symm h1]
  have outer : ∀ (l m : Dict Nm P) (d : Dict (Nm × Nm) ℂ) (k : Nm × Nm),
      Dict.get? (l.foldl (fun d e => m.foldl (fun d e2 => Dict.set d (e.1, e2.1) 0) d) d) k =
      if k.1 ∈ Dict.keys l ∧ k.2 ∈ Dict.keys m then some 0 else Dict.get? d k := by
    intro l
    induction l with
    | nil => intro m d k; simp [Dict.keys]
    | cons e l ih =>
      intro m d k
      rw [List.foldl_cons, ih, inner]
      have : k.1 ∈ Dict.keys (e :: l) ↔ k.1 = e.1 ∨ k.1 ∈ Dict.keys l := List.mem_cons
      simp only [this]
      by_cases h1 : k.1 ∈ Dict.keys l
      · simp only [h1, true_and, or_true]
        split_ifs <;> simp_all
      · simp only [h1, false_and, or_false, if_false]
  unfold nsums_init
  rw [outer, if_pos ⟨ha, hb⟩]

end Fold

/-- The coupling from a noise node to a node read out; there is none when the solver has no entry. -/
def resp (cm : Dict ((P × K) × (P × K)) ℂ) (pk1 pk2 : P × K) : ℂ := (Dict.get? cm (pk1, pk2)).getD 0

/-- What a pair contributes to the spectrum of the ports `pa` and `pb`. -/
def spectrum (adjust : ℂ) (S : Pair P K O → ℂ) (cm : Dict ((P × K) × (P × K)) ℂ) (keyP keyN : K) (pa pb : P)
    (c : Pair P K O) : ℂ :=
  adjust * S c * resp cm c.pk1 (pa, keyP) * resp cm c.pk2 (pb, keyN)

variable {port_map : Dict Nm P} {keyP keyN : K} {adjust : ℂ} {S : Pair P K O → ℂ}
variable {cm : Dict ((P × K) × (P × K)) ℂ} {cplgs : Dict P (List K)} {base : P → P} {calls : List (Pair P K O)}
variable {st : St P K O}

/-- **C77**, the noise map: building it fails exactly when a call names a key its port does not have; otherwise the
map holds under two nodes exactly the calls made for them, in order, and the driven nodes are those of the calls. -/
theorem C77_noise_map :
    ((∃ st, noise_map cplgs base calls = .ok st) ↔ ∀ c ∈ calls, ∀ pk, pk = c.pk1 ∨ pk = c.pk2 →
      ∃ ks, Dict.get? cplgs (base pk.1) = some ks ∧ pk.2 ∈ ks) ∧
    ∀ st, noise_map cplgs base calls = .ok st →
      (∀ pk1 pk2, ((Dict.get? ((Dict.get? st.nmap pk1).getD []) pk2).getD []) =
        calls.filter (fun c => c.pk1 = pk1 ∧ c.pk2 = pk2)) ∧
      ∀ pk, pk ∈ st.pks ↔ ∃ c ∈ calls, pk = c.pk1 ∨ pk = c.pk2 := by
  have hcheck : ∀ pk, check cplgs base pk = .ok () ↔ ∃ ks, Dict.get? cplgs (base pk.1) = some ks ∧ pk.2 ∈ ks := by
    intro pk
    unfold check
    cases Dict.get? cplgs (base pk.1) with
    | none => simp
    | some ks =>
      dsimp only
      by_cases h : pk.2 ∈ ks
      · simp [h]
      · simp [h]
  refine ⟨⟨?_, ?_⟩, ?_⟩
  · rintro ⟨st, h⟩ c hc pk (rfl | rfl)
    · exact (hcheck _).1 ((map_ok h).1 c hc).1
    · exact (hcheck _).1 ((map_ok h).1 c hc).2
  · intro h
    unfold noise_map
    have : ∀ st : St P K O, ∃ st', calls.foldlM (noise_pair_insert cplgs base) st = .ok st' := by
      induction calls with
      | nil => exact fun st => ⟨st, rfl⟩
      | cons c calls ih =>
        intro st
        have h1 := (hcheck c.pk1).2 (h c List.mem_cons_self _ (Or.inl rfl))
        have h2 := (hcheck c.pk2).2 (h c List.mem_cons_self _ (Or.inr rfl))
        rw [List.foldlM_cons]
        unfold noise_pair_insert at ih ⊢
        rw [h1, h2]
        exact ih (fun c' hc' => h c' (List.mem_cons_of_mem _ hc')) _
    exact this _
  · intro st h
    obtain ⟨-, h2, h3⟩ := map_ok h
    refine ⟨fun pk1 pk2 => ?_, fun pk => ?_⟩
    · exact h2 pk1 pk2
    · rw [h3]
      simp

theorem csd_core (hst : noise_map cplgs base calls = .ok st) (hcm : Dict.WF cm) (hpm : Dict.WF port_map)
    {a b : Nm} {pa pb : P} (ha : Dict.get? port_map a = some pa) (hb : Dict.get? port_map b = some pb) :
    ∃ L : List (O × ℂ),
      Dict.get? (CSD_builds port_map keyP keyN adjust S cm st.nmap).nsums (a, b) = some (L.map Prod.snd).sum ∧
      collected (CSD_builds port_map keyP keyN adjust S cm st.nmap).ncollect (a, b) = (L.map Prod.snd).sum ∧
      (∀ o, (look (CSD_builds port_map keyP keyN adjust S cm st.nmap).ncollect o (a, b)).getD 0 =
        (L.map (fun ov => if ov.1 = o then ov.2 else 0)).sum) ∧
      ∀ g : O → ℂ → ℂ, (∀ o, g o 0 = 0) → (L.map (fun ov => g ov.1 ov.2)).sum = (calls.map (fun c => g c.nobj
        (if a = b then npreal (spectrum adjust S cm keyP keyN pa pb c) else spectrum adjust S cm keyP keyN pa pb c))).sum := by
  have hm : ∀ pk1 pk2, stored st.nmap pk1 pk2 = calls.filter (fun c => c.pk1 = pk1 ∧ c.pk2 = pk2) := by
    intro pk1 pk2
    exact (map_ok hst).2.1 pk1 pk2
  have wv : ∀ key : K, Dict.WF (views port_map key) := by
    intro key
    unfold Dict.WF
    rw [views_keys]
    exact hpm
  obtain ⟨p1, p2, p3⟩ := kvecs_spec (wv keyP) hcm
  obtain ⟨n1, n2, n3⟩ := kvecs_spec (wv keyN) hcm
  have ga : Dict.get? (views port_map keyP) a = some (pa, keyP) := by rw [views_get, ha]; rfl
  have gb : Dict.get? (views port_map keyN) b = some (pb, keyN) := by rw [views_get, hb]; rfl
  obtain ⟨t1, t2, t3⟩ := table_fold (table_WF adjust S st.nmap p1.1 n1.1) ⟨[], nsums_init port_map⟩ (a, b)
  rw [builds_eq]
  rw [table_get] at t1 t2 t3
  have ma : a ∈ Dict.keys port_map := by rw [Dict.mem_keys_iff, ha]; rfl
  have mb : b ∈ Dict.keys port_map := by rw [Dict.mem_keys_iff, hb]; rfl
  rw [nsums_init_get port_map ma mb] at t1
  have c0 : collected ([] : Dict O (Dict (Nm × Nm) ℂ)) (a, b) = 0 := rfl
  have l0 : ∀ o, (look ([] : Dict O (Dict (Nm × Nm) ℂ)) o (a, b)).getD 0 = 0 := fun o => rfl
  simp only [c0, zero_add] at t2
  simp only [l0, zero_add] at t3
  refine ⟨((Dict.get? (kvecs (views port_map keyP) cm) a).bind (fun u => (Dict.get? (kvecs (views port_map keyN) cm) b).map
    (fun v => contrib adjust S st.nmap a b u v))).getD [], ?_, t2, t3, ?_⟩
  · rw [t1]
    cases (Dict.get? (kvecs (views port_map keyP) cm) a).bind (fun u => (Dict.get? (kvecs (views port_map keyN) cm) b).map
      (fun v => contrib adjust S st.nmap a b u v)) with
    | none => rfl
    | some L => rfl
  · intro g h0
    have hz : ∀ v : List (O × ℂ), v = contrib adjust S st.nmap a b ((Dict.get? (kvecs (views port_map keyP) cm) a).getD [])
        ((Dict.get? (kvecs (views port_map keyN) cm) b).getD []) → (v.map (fun ov => g ov.1 ov.2)).sum =
        (calls.map (fun c => g c.nobj (if a = b then npreal (spectrum adjust S cm keyP keyN pa pb c)
          else spectrum adjust S cm keyP keyN pa pb c))).sum := by
      rintro v rfl
      rw [sum_contrib hm (p1.2 a) (n1.2 b) adjust S a b g h0]
      congr 1
      apply List.map_congr_left
      intro c _
      have r1 : (Dict.get? ((Dict.get? (kvecs (views port_map keyP) cm) a).getD []) c.pk1).getD 0 = resp cm c.pk1 (pa, keyP) :=
        congrArg (fun v => v.getD 0) (p3 a _ ga c.pk1)
      have r2 : (Dict.get? ((Dict.get? (kvecs (views port_map keyN) cm) b).getD []) c.pk2).getD 0 = resp cm c.pk2 (pb, keyN) :=
        congrArg (fun v => v.getD 0) (n3 b _ gb c.pk2)
      rw [r1, r2]
      rfl
    apply hz
    have e1 : ∀ v : Dict (P × K) ℂ, contrib adjust S st.nmap a b [] v = [] := fun v => rfl
    have e2 : ∀ u : Dict (P × K) ℂ, contrib adjust S st.nmap a b u [] = [] := by
      intro u
      unfold contrib
      induction u with
      | nil => rfl
      | cons x u ih => exact ih
    cases Dict.get? (kvecs (views port_map keyP) cm) a with
    | none => exact (e1 _).symm
    | some u =>
      cases Dict.get? (kvecs (views port_map keyN) cm) b with
      | none => exact (e2 _).symm
      | some v => rfl

/-- **C77**: every entry of the cross spectral density is the sum over all inserted pairs of the spectrum times the
coupling of the first node to the first port at `keyP` times that of the second node to the second port at `keyN`;
the real part of it for an entry on the diagonal. -/
theorem C77_csd (hst : noise_map cplgs base calls = .ok st) (hcm : Dict.WF cm) (hpm : Dict.WF port_map)
    {a b : Nm} {pa pb : P} (ha : Dict.get? port_map a = some pa) (hb : Dict.get? port_map b = some pb) :
    Dict.get? (CSD_builds port_map keyP keyN adjust S cm st.nmap).nsums (a, b) =
      some (if a = b then npreal (calls.map (spectrum adjust S cm keyP keyN pa pb)).sum
        else (calls.map (spectrum adjust S cm keyP keyN pa pb)).sum) := by
  obtain ⟨L, h1, -, -, h4⟩ := csd_core (keyP := keyP) (keyN := keyN) (adjust := adjust) (S := S) hst hcm hpm ha hb
  rw [h1]
  have := h4 (fun _ v => v) (fun _ => rfl)
  refine congrArg some (this.trans ?_)
  by_cases hab : a = b
  · simp only [if_pos hab]
    clear this h4 h1 hst
    induction calls with
    | nil => simp [npreal]
    | cons c calls ih =>
      rw [List.map_cons, List.sum_cons, List.map_cons, List.sum_cons, ih]
      unfold npreal
      rw [Complex.add_re, Complex.ofReal_add]
  · simp only [if_neg hab]

/-- **C77**, source by source: the entry of a source is the same sum over its own pairs, and the entries of all sources
add up to the density. -/
theorem C77_by_source (hst : noise_map cplgs base calls = .ok st) (hcm : Dict.WF cm) (hpm : Dict.WF port_map)
    {a b : Nm} {pa pb : P} (ha : Dict.get? port_map a = some pa) (hb : Dict.get? port_map b = some pb) :
    (∀ o, (Dict.get? ((Dict.get? (CSD_builds port_map keyP keyN adjust S cm st.nmap).ncollect o).getD []) (a, b)).getD 0 =
      ((calls.filter (fun c => c.nobj = o)).map (fun c => if a = b then npreal (spectrum adjust S cm keyP keyN pa pb c)
        else spectrum adjust S cm keyP keyN pa pb c)).sum) ∧
    Dict.get? (CSD_builds port_map keyP keyN adjust S cm st.nmap).nsums (a, b) =
      some (((CSD_builds port_map keyP keyN adjust S cm st.nmap).ncollect.map
        (fun e => (Dict.get? e.2 (a, b)).getD 0)).sum) := by
  obtain ⟨L, h1, h2, h3, h4⟩ := csd_core (keyP := keyP) (keyN := keyN) (adjust := adjust) (S := S) hst hcm hpm ha hb
  refine ⟨fun o => ?_, ?_⟩
  · refine (h3 o).trans ((h4 (fun o' v => if o' = o then v else 0) (fun o' => ite_self 0)).trans ?_)
    clear h4 h3 h2 h1 hst
    induction calls with
    | nil => rfl
    | cons c calls ih =>
      rw [List.map_cons, List.sum_cons, ih, List.filter_cons]
      by_cases ho : c.nobj = o
      · have hd : decide (c.nobj = o) = true := by simpa using ho
        rw [if_pos ho, hd, if_pos rfl, List.map_cons, List.sum_cons]
      · have hd : decide (c.nobj = o) = false := by simpa using ho
        rw [if_neg ho, hd, if_neg (by decide), zero_add]
  · rw [h1]
    exact congrArg some h2.symm

/-- **C77**, the readout of one port: `AC_PSD` is the real part of the sum over all pairs, `AC_PSD_by_source` gives every
source the sum over its own pairs, sources without coupling nothing, and its values add up to `AC_PSD`. -/
theorem C77_readout (hst : noise_map cplgs base calls = .ok st) (hcm : Dict.WF cm) (hpm : Dict.WF port_map)
    {R : Nm} {p : P} (hR : Dict.get? port_map R = some p) :
    let B := CSD_builds port_map keyP keyN adjust S cm st.nmap
    AC_PSD R B = .ok (npreal (calls.map (spectrum adjust S cm keyP keyN p p)).sum) ∧
    AC_PSD R B = .ok ((AC_PSD_by_source R B).map Prod.snd).sum ∧
    ∀ o, (Dict.get? (AC_PSD_by_source R B) o).getD 0 =
      ((calls.filter (fun c => c.nobj = o)).map (fun c => npreal (spectrum adjust S cm keyP keyN p p c))).sum := by
  intro B
  have h1 := C77_csd (keyP := keyP) (keyN := keyN) (adjust := adjust) (S := S) hst hcm hpm hR hR
  obtain ⟨h2, h3⟩ := C77_by_source (keyP := keyP) (keyN := keyN) (adjust := adjust) (S := S) hst hcm hpm hR hR
  rw [if_pos rfl] at h1
  have hget : ∀ v, Dict.get? B.nsums (R, R) = some v → AC_PSD R B = .ok v := by
    intro v hv
    unfold AC_PSD Dict.get
    rw [hv]
  refine ⟨hget _ h1, ?_, ?_⟩
  · rw [hget _ h3]
    unfold AC_PSD_by_source
    rw [List.map_map]
    rfl
  · intro o
    have := h2 o
    simp only [if_true] at this
    rw [← this]
    unfold AC_PSD_by_source
    change (Dict.get? (B.ncollect.map _) o).getD 0 = (Dict.get? ((Dict.get? B.ncollect o).getD []) (R, R)).getD 0
    generalize B.ncollect = d
    induction d with
    | nil => rfl
    | cons e d ih =>
      rw [List.map_cons, Dict.get?_cons, Dict.get?_cons]
      dsimp only
      by_cases he : e.1 = o
      · rw [if_pos he, if_pos he]
        rfl
      · rw [if_neg he, if_neg he]
        exact ih

end Noise
