import Verif.MPS.InnerTwoC105
import Verif.MPS.TraceAB

/-! # C106: `inner(MPS,MPO,MPO,MPS)` -/

namespace Verif.MPS

open Verif.Tensor Verif.Index Verif.Index.IndexSet Verif.Net Finset

variable {K : Type*} [CommRing K] [DecidableEq K]

/-- `Ap` and `xdag` in `inner(MPS,MPO,MPO,MPS)` (mpo.cc:738-744). `uniqueSiteInds(A,IndexSet)` (mpo.cc:238-250) is
`siteIndsFrom` with the one index of each site. The three functions give the ids of the new indices: `sim` of the sites, of
the links of `Ap` and of those of `xdag`. -/
def braOps (conj : K →+* K) (newid0 newidA newidx : Key → Nat) (x A B y : List (DTensor K)) :
    Res (List (DTensor K) × List (DTensor K)) :=
  (siteIndsFrom [] B (y.map (·.is))).bind fun sB => (siteIndsFrom [] A (sB.map fun i => [i])).bind fun sABy =>
    (replaceSiteIndsMPO A sABy (sABy.map (sim newid0))).bind fun Ap0 => (freshLinks newidA Ap0).bind fun Ap =>
    (replaceSiteInds x (sABy.map (sim newid0))).bind fun xp => (freshLinks newidx (xp.map (dagD conj))).bind fun xdag => .ok (Ap, xdag)

/-- `inner(MPS,MPO,MPO,MPS)` (mpo.cc:726-761). -/
def innerxABy (fuel : Nat) (junk fresh : Int → K) (conj : K →+* K) (newid0 newidA newidx : Key → Nat) (x A B y : List (DTensor K)) :
    Run K :=
  if x.length ≠ y.length ∨ x.length ≠ A.length ∨ x.length ≠ B.length then some .throw
  else match braOps conj newid0 newidA newidx x A B y with
    | .ok (Ap, xdag) => sandwich fuel junk fresh (firstMiddleLast ((y.zip (B.zip (Ap.zip xdag))).map fun q =>
        [q.1, q.2.1, q.2.2.1, q.2.2.2]))
    | .throw => some .throw
    | .ub => some .ub

omit [CommRing K] [DecidableEq K] in
theorem sim_plain {newid : Key → Nat} {i : Index} (h : Plain i) (h0 : newid i.key ≠ 0) : Plain (sim newid i) :=
  ⟨h.dir, h0, h.qns, h.lo, h.hi⟩

/-- The output sites of an operator are given new names. -/
theorem renameOut_spec {ext : Key → Nat} {A : List (DTensor K)} {r t a : List Key} (hA : IsMPO ext A r t a) (hrt : r.length = t.length)
    (hne : r ≠ []) {sA : IndexSet} (hk : keys sA = r) (hm : ∀ i ∈ sA, ∃ T ∈ A, i ∈ T.is) {newid : Key → Nat}
    (hf : Fresh ext newid r (r ++ t ++ a)) :
    ∃ P, replaceSiteIndsMPO A sA (sA.map (sim newid)) = .ok P ∧ IsMPO ext P (r.map (simKey newid)) t a ∧
      ∀ τ σ : Key → Nat, (∀ k ∈ r, τ (simKey newid k) = σ k) → (∀ k ∈ t, τ k = σ k) → amp ext P a τ = amp ext A a σ := by
  have hlA := hA.length hrt
  have nA := hA.nodups hrt
  have hsA : sA.length = r.length := by rw [← hk]; simp [keys]
  have n1 := List.nodup_append.1 nA
  have n2 := List.nodup_append.1 n1.1
  have hrt' : ∀ k ∈ t, k ∉ r := fun k h h' => n2.2.2 k h' k h rfl
  have har' : ∀ k ∈ a, k ∉ r := fun k h h' => n1.2.2 k (by simp [h']) k h rfl
  have hknew : keys (sA.map (sim newid)) = r.map (simKey newid) := by
    rw [← hk]; simp only [keys, List.map_map]; rfl
  unfold replaceSiteIndsMPO
  rw [if_neg (by simp only [List.length_map]; omega)]
  have hall : ¬ ((A.zip (sA.map (sim newid))).all fun q => hasIndex q.1.is q.2) = true := by
    intro h
    rw [List.all_eq_true] at h
    rcases A with _ | ⟨T, A⟩
    · exact hne (List.length_eq_zero_iff.1 (by simpa using hlA.symm))
    rcases sA with _ | ⟨i, sA⟩
    · exact hne (by rw [← hk]; rfl)
    have := h (T, sim newid i) (by simp)
    rw [hasIndex_iff] at this
    obtain ⟨j, hj, e⟩ := List.mem_map.1 this
    have hn := hA.names hrt (T := T) (by simp) hj
    rw [e, sim_key] at hn
    exact hf.unused i.key (by rw [← hk]; simp [keys]) (by simp only [List.mem_append]; tauto)
  rw [if_neg hall]
  let ren : Key → Key := fun k => if k ∈ r then simKey newid k else k
  have hrr : ∀ k ∈ r, ren k = simKey newid k := fun k h => if_pos h
  have htr : ∀ k ∈ t, ren k = k := fun k h => if_neg (hrt' k h)
  have har : ∀ k ∈ a, ren k = k := fun k h => if_neg (har' k h)
  have hmr : r.map ren = r.map (simKey newid) := List.map_congr_left hrr
  have hmt : t.map ren = t := by
    conv_rhs => rw [← List.map_id t]
    exact List.map_congr_left htr
  have hma : a.map ren = a := by
    conv_rhs => rw [← List.map_id a]
    exact List.map_congr_left har
  obtain ⟨P, eP, hP⟩ := replaceSites_spec (ren := ren) (ext := ext) A sA (sA.map (sim newid)) (by omega)
    (match_of (by rw [hknew, hk, hmr]) (by
      rw [hk, ← hk, keys, List.map_map, List.map_map]
      refine List.map_congr_left fun i hi => ?_
      obtain ⟨T, hT, hiT⟩ := hm i hi
      exact (hA.ok T hT).dims i hiT)
      (fun i hi => by obtain ⟨T, hT, hiT⟩ := hm i hi; exact (hA.plain T hT i hiT).id)
      (fun i hi => by
        obtain ⟨j, hj, rfl⟩ := List.mem_map.1 hi
        obtain ⟨T, hT, hiT⟩ := hm j hj
        exact sim_plain (hA.plain T hT j hiT) (hf.ne_zero _ (by rw [← hk]; exact List.mem_map_of_mem hj))))
    (fun T hT => ⟨hA.ok T hT, hA.plain T hT⟩) (by
      intro n hn hn' k hk' hkne
      refine if_neg fun hkr => ?_
      obtain ⟨q1, q2, q3⟩ := hA.shape.names
      have hpl : n < (pairs r t).length := by rw [pairs_length hrt]; omega
      have hnr : n < r.length := by omega
      have hks : sA[n].key = r[n] := by
        have := congrArg (fun y => y[n]?) hk
        simp [keys, hn', hnr] at this
        exact this
      rcases q3 n (by simpa using hn) hpl k (by simpa using hk') with h | h | h
      · rw [pairs_get hpl hnr (by omega)] at h
        simp only [List.mem_cons, List.not_mem_nil, or_false] at h
        rcases h with h | h
        · exact hkne (h.trans hks.symm)
        · exact hrt' t[n] (List.getElem_mem _) (by rw [← h]; exact hkr)
      · exact har' k h hkr
      · cases h)
  have hSr : (pairs r t).map (·.map ren) = pairs (r.map (simKey newid)) t := by
    rw [← hmr]
    conv_rhs => rw [← hmt]
    simp [pairs, List.zip_map, Function.comp_def]
  have hnd : (r.map (simKey newid) ++ t ++ a).Nodup := by
    rw [List.append_assoc, List.nodup_append]
    refine ⟨hf.nodup, (List.nodup_append.1 (by rw [← List.append_assoc]; exact nA)).2.1, fun k h k' h' e => ?_⟩
    subst e
    obtain ⟨k0, h0, rfl⟩ := List.mem_map.1 h
    exact hf.unused k0 h0 (by rw [List.append_assoc]; exact List.mem_append_right _ h')
  have he : ∀ k ∈ (pairs r t).flatten ++ a, ext (ren k) = ext k := by
    intro k h
    rw [List.mem_append, (pairs_perm hrt).mem_iff, List.mem_append] at h
    rcases h with (h | h) | h
    · rw [hrr k h]; exact hf.ext_eq k h
    · rw [htr k h]
    · rw [har k h]
  refine ⟨P, eP, ?_, fun τ σ h1 h2 => ?_⟩
  · have := hA.renamed hP (by
      rw [hSr, hma]
      exact ((pairs_perm (by simpa using hrt)).append_right a).nodup_iff.2 hnd) he
    rwa [hSr, hma] at this
  · have hσ := amp_renamed (conj := RingHom.id K) hA hP (by
      refine (((pairs_perm hrt).append_right a).map ren).nodup_iff.2 ?_
      rw [List.map_append, List.map_append, hmr, hmt, hma]
      exact hnd) he τ (fun k => τ (ren k)) fun k _ => rfl
    rw [hma] at hσ
    rw [hσ]
    refine hA.amp_dep _ _ fun k h => ?_
    replace h : k ∈ (pairs r t).flatten := h
    rw [(pairs_perm hrt).mem_iff, List.mem_append] at h
    beta_reduce
    rcases h with h | h
    · rw [hrr k h]; exact h1 k h
    · rw [htr k h]; exact h2 k h

/-- The sites of a state are given other names. -/
theorem renameState_spec {ext : Key → Nat} {x : List (DTensor K)} {s l p : List Key} (hx : IsMPS ext x s l) {sites : IndexSet}
    (hk : keys sites = p) (hd : sites.map (·.dim) = s.map ext) (hp : ∀ i ∈ sites, Plain i) (hpe : p.map ext = s.map ext)
    (hnd : (p ++ l).Nodup) :
    ∃ B, replaceSiteInds x sites = .ok B ∧ IsMPS ext B p l ∧ ∀ v : List Nat, v.length = s.length →
      amp ext B l (assign 0 p v) = amp ext x l (assign 0 s v) := by
  have ndx := hx.nodup
  rw [flatten_single] at ndx
  have hsn := (List.nodup_append.1 ndx).1
  have hls : ∀ k ∈ l, k ∉ s := fun k h h' => (List.nodup_append.1 ndx).2.2 k h' k h rfl
  have hlen : p.length = s.length := by simpa using congrArg List.length hpe
  obtain ⟨ren, hr, hrl⟩ := exists_ren (fun k => k) hsn hlen.symm
  have hrl' : ∀ k ∈ l, ren k = k := fun k h => hrl k (hls k h)
  obtain ⟨B, e, hB⟩ := replaceSiteInds_spec hx (ren := ren) (by rw [hk, hr]) hd hp hrl' (by rw [hk]; exact (List.nodup_append.1 hnd).1)
  have hml : l.map ren = l := by
    conv_rhs => rw [← List.map_id l]
    exact List.map_congr_left hrl'
  have hms : (s.map fun k => [k]).map (·.map ren) = p.map fun k => [k] := by rw [← hr]; simp
  have he : ∀ k ∈ (s.map fun k => [k]).flatten ++ l, ext (ren k) = ext k := by
    rw [flatten_single]
    intro k h
    rcases List.mem_append.1 h with h | h
    · have : s.map (fun k => ext (ren k)) = s.map ext := by rw [← hpe, ← hr, List.map_map]; rfl
      exact List.map_inj_left.1 this k h
    · rw [hrl' k h]
  refine ⟨B, e, ?_, fun v hv => ?_⟩
  · have := hx.renamed hB (by rw [hms, hml, flatten_single]; exact hnd) he
    rwa [hms, hml] at this
  · have hσ := amp_renamed (conj := RingHom.id K) hx hB (by
      rw [flatten_single, List.map_append, hr, hml]; exact hnd) he (assign 0 p v) (fun k => assign 0 p v (ren k)) fun k _ => rfl
    rw [hml] at hσ
    rw [hσ]
    refine hx.amp_dep _ _ fun k h => ?_
    rw [flatten_single] at h
    obtain ⟨n, hn, rfl⟩ := List.mem_iff_getElem.1 h
    have hnp : n < p.length := by omega
    have : ren s[n] = p[n] := by subst hr; simp
    beta_reduce
    rw [this, assign_getElem (List.nodup_append.1 hnd).1 n hnp (by omega), assign_getElem hsn n hn (by omega)]

/-- C106: on two or more sites `inner(x,A,B,y)` is the sum over all values of the sites of the conjugated component of `x` times the
component of `A` times the component of `B y`, whatever the output sites of `A` and the sites of `x` are called: `A` and `B` may be the
same operator up to the names of its sites, and the sites may be those of `y`. Every intermediate tensor has at most `d ^ 5` elements.
On one site it does not give this (`C106_xABy_counterexample`). -/
theorem C106_xABy_partial {ext : Key → Nat} {x A B y : List (DTensor K)} {s lx r t a u ly b : List Key} (hx : IsMPS ext x s lx)
    (hA : IsMPO ext A r t a) (hB : IsMPO ext B t u b) (hy : IsMPS ext y u ly) (hN : 2 ≤ t.length) (hlr : r.length = t.length)
    (hlu : t.length = u.length) (hdim : r.map ext = s.map ext) (hBy : (u ++ (t ++ (ly ++ b))).Nodup) (conj : K →+* K)
    {newid0 newidA newidx : Key → Nat} (hf0 : Fresh ext newid0 r (r ++ t ++ a ++ (u ++ (t ++ (ly ++ b))) ++ lx))
    (hfA : Fresh ext newidA a (r.map (simKey newid0) ++ (u ++ (t ++ (ly ++ b)))))
    (hfx : Fresh ext newidx lx (r.map (simKey newid0) ++ (u ++ (t ++ (ly ++ (b ++ a.map (simKey newidA)))))))
    {d fuel : Nat} (hd : 1 ≤ d) (hext : ∀ k, ext k ≤ d) (hmax : ((d ^ 5 : Nat) : Int) ≤ offMax) (hfuel : d ^ 5 < fuel)
    (junk fresh : Int → K) :
    innerxABy fuel junk fresh conj newid0 newidA newidx x A B y = some (.ok (sumVals (t.map ext) fun w =>
      (sumVals (s.map ext) fun v => conj (amp ext x lx (assign 0 s v)) * amp ext A a (assign (assign 0 t w) r v)) *
      sumVals (u.map ext) fun v => amp ext B b (assign (assign 0 t w) u v) * amp ext y ly (assign 0 u v))) := by
  have ndx := hx.nodup
  rw [flatten_single] at ndx
  have hun := (List.nodup_append.1 hBy).1
  have hly : y.length = u.length := by simpa using hy.shape.length
  have hlx : x.length = s.length := by simpa using hx.shape.length
  have hlrs : r.length = s.length := by simpa using congrArg List.length hdim
  have hlB := hB.length hlu
  have hlA := hA.length hlr
  have nA := hA.nodups hlr
  have nrt : ∀ k ∈ r, k ∉ t := fun k h h' => (List.nodup_append.1 (List.nodup_append.1 nA).1).2.2 k h k h' rfl
  have hrn : r.Nodup := (List.nodup_append.1 (List.nodup_append.1 nA).1).1
  obtain ⟨sB, e1, k1, _⟩ := siteIndsFrom_spec (prev := []) hB.shape hB.nodup (by simp) (by simp [keys]) (fun T hT => (hB.ok T hT).nodup)
    (pick_op hB hy hlu (by
      intro k hk hk'
      simp only [List.nodup_append, List.mem_append] at hBy
      rcases List.mem_append.1 hk' with h | h
      · exact hBy.2.2 k h k (Or.inl hk) rfl
      · exact hBy.2.1.2.2 k hk k (Or.inl h) rfl))
  have hsB : sB.length = t.length := by rw [← k1]; simp [keys]
  have hkB : ∀ n (h : n < t.length) (h' : n < sB.length), sB[n].key = t[n] := by
    intro n h h'; subst k1; simp [keys]
  obtain ⟨sA, e2, k2, m2⟩ := siteIndsFrom_spec (prev := []) hA.shape hA.nodup (by simp) (by simp [keys]) (fun T hT => (hA.ok T hT).nodup)
    (pick_pairs (O := sB.map fun i => [i]) hlr (by simp only [List.length_map]; omega) (by
      intro n h h' hm
      simp only [List.getElem_map, keys, List.map_cons, List.map_nil, List.mem_singleton] at hm
      rw [hkB n (by omega) (by simpa using h')] at hm
      exact nrt r[n] (List.getElem_mem _) (by rw [hm]; exact List.getElem_mem _)) (by
      intro n h h'
      simp only [List.getElem_map, keys, List.map_cons, List.map_nil, List.mem_singleton]
      exact (hkB n h (by simpa using h')).symm))
  have hf0' : Fresh ext newid0 r (r ++ t ++ a) := ⟨hf0.ne_zero, hf0.nodup, fun k hk h => hf0.unused k hk (by
    rw [List.append_assoc _ _ lx]; exact List.mem_append_left _ h), hf0.ext_eq⟩
  obtain ⟨P, e3, hP, vP⟩ := renameOut_spec hA hlr (by rintro rfl; simp at hlr; omega) k2 m2 hf0'
  have hlp : (r.map (simKey newid0)).length = t.length := by simpa using hlr
  obtain ⟨Ap, e4, hAp, vAp⟩ := dagLinks_spec hP (RingHom.id K) hfA (by
    intro k hk
    rw [(pairs_perm hlp).mem_iff, List.mem_append] at hk
    rcases hk with h | h
    · exact List.mem_append_left _ h
    · exact List.mem_append_right _ (List.mem_append_right _ (List.mem_append_left _ h)))
  have hPid : P.map (dagD (RingHom.id K)) = P := by
    conv_rhs => rw [← List.map_id P]
    exact List.map_congr_left fun T _ => rfl
  rw [hPid] at e4
  have hnewp : ∀ k ∈ r.map (simKey newid0), k ∉ r ++ t ++ a ++ (u ++ (t ++ (ly ++ b))) ++ lx := by
    intro k hk
    obtain ⟨k0, h0, rfl⟩ := List.mem_map.1 hk
    exact hf0.unused k0 h0
  have hpe : (r.map (simKey newid0)).map ext = s.map ext := by
    rw [← hdim, List.map_map]
    exact List.map_congr_left fun k hk => hf0.ext_eq k hk
  obtain ⟨xp, e5, hxp, vxp⟩ := renameState_spec hx (sites := sA.map (sim newid0)) (p := r.map (simKey newid0))
    (by rw [← k2]; simp only [keys, List.map_map]; rfl) (by
      rw [← hdim, ← k2, keys, List.map_map, List.map_map]
      refine List.map_congr_left fun i hi => ?_
      obtain ⟨T, hT, hiT⟩ := m2 i hi
      exact (hA.ok T hT).dims i hiT) (by
      intro i hi
      obtain ⟨j, hj, rfl⟩ := List.mem_map.1 hi
      obtain ⟨T, hT, hiT⟩ := m2 j hj
      exact sim_plain (hA.plain T hT j hiT) (hf0.ne_zero _ (by rw [← k2]; exact List.mem_map_of_mem hj))) hpe (by
      rw [List.nodup_append]
      exact ⟨hf0.nodup, (List.nodup_append.1 ndx).2.1, fun k h k' h' e => hnewp k h (by subst e; exact List.mem_append_right _ h')⟩)
  obtain ⟨xd, e6, hxd, vx⟩ := dagLinks_spec hxp conj hfx (by
    intro k hk
    rw [flatten_single] at hk
    exact List.mem_append_left _ hk)
  have hnewA : ∀ k ∈ a.map (simKey newidA), k ∉ r.map (simKey newid0) ++ (u ++ (t ++ (ly ++ b))) := by
    intro k hk
    obtain ⟨k0, h0, rfl⟩ := List.mem_map.1 hk
    exact hfA.unused k0 h0
  have hnewx : ∀ k ∈ lx.map (simKey newidx), k ∉ r.map (simKey newid0) ++ (u ++ (t ++ (ly ++ (b ++ a.map (simKey newidA))))) := by
    intro k hk
    obtain ⟨k0, h0, rfl⟩ := List.mem_map.1 hk
    exact hfx.unused k0 h0
  have hrest : (t ++ (ly ++ (b ++ (a.map (simKey newidA) ++ lx.map (simKey newidx))))).Nodup := by
    have e : t ++ (ly ++ (b ++ (a.map (simKey newidA) ++ lx.map (simKey newidx)))) =
        ((t ++ (ly ++ b)) ++ a.map (simKey newidA)) ++ lx.map (simKey newidx) := by simp only [List.append_assoc]
    rw [e, List.nodup_append, List.nodup_append]
    refine ⟨⟨(List.nodup_append.1 hBy).2.1, hfA.nodup, fun k hk k' hk' e => hnewA k' hk' ?_⟩, hfx.nodup, fun k hk k' hk' e => hnewx k' hk' ?_⟩
    · subst e
      exact List.mem_append_right _ (List.mem_append_right _ hk)
    · subst e
      refine List.mem_append_right _ (List.mem_append_right _ ?_)
      simpa only [List.append_assoc] using hk
  have hdis : ∀ {q : List Key}, q.Nodup → (∀ k ∈ q, k ∉ t ++ (ly ++ b)) → (∀ k ∈ q, k ∈ r.map (simKey newid0) ++ u) →
      (q ++ (t ++ (ly ++ (b ++ (a.map (simKey newidA) ++ lx.map (simKey newidx)))))).Nodup := by
    intro q hq h1 h2
    rw [List.nodup_append]
    refine ⟨hq, hrest, fun k hk k' hk' e => ?_⟩
    subst e
    have h3 := h1 k hk
    have h4 := h2 k hk
    have h5 := hnewA k
    have h6 := hnewx k
    generalize r.map (simKey newid0) = p at *
    generalize a.map (simKey newidA) = a' at *
    generalize lx.map (simKey newidx) = lx' at *
    simp only [List.mem_append, not_or] at h3 h4 h5 h6 hk'
    rcases hk' with h | h | h | h | h
    · exact h3.1 h
    · exact h3.2.1 h
    · exact h3.2.2 h
    · rcases h4 with h4 | h4
      · exact (h5 h).1 h4
      · exact (h5 h).2.1 h4
    · rcases h4 with h4 | h4
      · exact (h6 h).1 h4
      · exact (h6 h).2.1 h4
  have hlAp := IsMPO.length hAp hlp
  have hlxd : xd.length = r.length := by simpa using hxd.shape.length
  rw [innerxABy, if_neg (by omega)]
  simp only [braOps, e1, e2, e3, e4, e5, e6, Res.bind]
  rw [firstMiddleLast_eq (by simp only [List.length_map, List.length_zip, List.length_map] at hlAp hlxd ⊢; omega)]
  rw [four_spec hd hext hmax hfuel junk fresh hy hB (IsMPO.swap hAp hlp) hxd (by omega) (by simp only [List.length_map]; omega)
    (hdis hun (fun k hk hk' => (List.nodup_append.1 hBy).2.2 k hk k hk' rfl) fun k hk => List.mem_append_right _ hk)
    (hdis hf0.nodup (fun k hk h => hnewp k hk (List.mem_append_left _ (List.mem_append_right _ (List.mem_append_right _ h))))
      fun k hk => List.mem_append_left _ hk) 0, sumOver_vals]
  congr 2
  refine sumVals_congr fun w _ => ?_
  rw [applied_vals hy hun, applied_vals hxd hf0.nodup, mul_comm, hpe]
  congr 1
  refine sumVals_congr fun v hv => ?_
  have hv' : v.length = s.length := by rw [hv]; simp
  rw [vAp, vx, vxp v hv', mul_comm]
  congr 1
  refine vP _ _ (fun k hk => ?_) fun k hk => ?_
  · obtain ⟨n, hn, rfl⟩ := List.mem_iff_getElem.1 hk
    have h1 := assign_getElem (ρ := assign 0 t w) (v := v) hf0.nodup n (by simpa using hn) (by omega)
    rw [List.getElem_map] at h1
    rw [h1, assign_getElem hrn n hn (by omega)]
  · rw [assign_not_mem (s := r.map (simKey newid0)) fun h => hnewp k h (by simp [hk]), assign_not_mem (s := r) fun h => nrt k h hk]

/-- The hypotheses of `C106_xABy_partial` hold when `A` and `B` are one operator, which has all indices in common with itself. -/
example : innerxABy 100 (fun _ => 77) (fun _ => 78) (RingHom.id Int) exId exId exId ex1 exOp exOp ex2 = some (.ok
    (sumVals [2, 2] fun w =>
      (sumVals [2, 2] fun v => amp (fun _ => 2) ex1 [K3] (assign 0 [K1, K2] v) *
        amp (fun _ => 2) exOp [K4] (assign (assign 0 [K1', K2'] w) [K1, K2] v)) *
      sumVals [2, 2] fun v => amp (fun _ => 2) exOp [K4] (assign (assign 0 [K1', K2'] w) [K1, K2] v) *
        amp (fun _ => 2) ex2 [K3] (assign 0 [K1, K2] v))) :=
  C106_xABy_partial (d := 2) ex1_mps (exOp_mpo.swap rfl) exOp_mpo ex2_mps (by decide) rfl rfl rfl (by decide) (RingHom.id Int)
    ⟨by decide, by decide, by decide, fun _ _ => rfl⟩ ⟨by decide, by decide, by decide, fun _ _ => rfl⟩
    ⟨by decide, by decide, by decide, fun _ _ => rfl⟩ (by decide) (fun _ => le_refl 2) (by decide) (by decide) _ _

/-- It is not zero. -/
example : innerxABy 100 (fun _ => 77) (fun _ => 78) (RingHom.id Int) exId exId exId ex1 exOp exOp ex2 ≠ some (.ok 0) := by decide +kernel

/-- **`inner(x,A,B,y)` is not `<x|A B|y>` on a single site**: with `A = B = 2` and `x = y = 1` on a site of dimension one it gives 16, the
square of `<x|A B|y> = 4`. The tensors of the site are multiplied in as the first and again as the last. -/
theorem C106_xABy_counterexample :
    innerxABy 100 (fun _ => 77) (fun _ => 78) (RingHom.id Int) exId exId exId [ten [mk 1 1] [1]] [ten [mk 1 1 1, mk 1 1] [2]]
      [ten [mk 1 1 1, mk 1 1] [2]] [ten [mk 1 1] [1]] = some (.ok 16) := by
  decide +kernel

end Verif.MPS
