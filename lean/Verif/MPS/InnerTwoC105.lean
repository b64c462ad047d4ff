import Verif.MPS.InnerTwoMain

/-! # C105: `inner(MPO,MPS,MPO,MPS)` on two or more sites -/

namespace Verif.MPS

open Verif.Tensor Verif.Index Verif.Index.IndexSet Verif.Net Finset

variable {K : Type*} [CommRing K] [DecidableEq K]

/-- `dag` and new links. -/
theorem dagLinks_spec {ext : Key → Nat} {A : List (DTensor K)} {S : List (List Key)} {l used : List Key} (h : IsChain ext A S l)
    (conj : K →+* K) {newid : Key → Nat} (hf : Fresh ext newid l used) (hu : ∀ k ∈ S.flatten, k ∈ used) :
    ∃ B, freshLinks newid (A.map (dagD conj)) = .ok B ∧ IsChain ext B S (l.map (simKey newid)) ∧
      ∀ τ, amp ext B (l.map (simKey newid)) τ = conj (amp ext A l τ) := by
  have hsl : ∀ k ∈ S.flatten, k ∉ l := fun k hk hk' => (List.nodup_append.1 h.nodup).2.2 k hk k hk' rfl
  have hconj : List.Forall₂ (Renamed id conj) A (A.map (dagD conj)) := by
    rw [List.forall₂_map_right_iff, List.forall₂_same]
    intro T hT
    exact ⟨id, by simp [dagD], fun _ => rfl, fun i hi => ⟨rfl, rfl, h.plain T hT i hi⟩⟩
  have hid : S.map (·.map id) = S := by simp
  have hd : IsChain ext (A.map (dagD conj)) S l := by
    have := h.renamed hconj (by rw [hid, List.map_id]; exact h.nodup) (by simp)
    rwa [hid, List.map_id] at this
  let ren : Key → Key := fun k => if k ∈ l then simKey newid k else k
  have hrl : ∀ k ∈ l, ren k = simKey newid k := fun k hk => by simp [ren, hk]
  have hrs : ∀ k ∈ S.flatten, ren k = k := fun k hk => by simp only [ren]; rw [if_neg (hsl k hk)]
  have hlm : l.map ren = l.map (simKey newid) := List.map_congr_left hrl
  have hSm : S.map (·.map ren) = S := by
    conv_rhs => rw [← List.map_id S]
    refine List.map_congr_left fun L hL => ?_
    conv_rhs => rw [id, ← List.map_id L]
    exact List.map_congr_left fun k hk => hrs k (List.mem_flatten.2 ⟨L, hL, hk⟩)
  have hnd : (S.flatten ++ l.map ren).Nodup := by
    rw [List.nodup_append]
    refine ⟨(List.nodup_append.1 h.nodup).1, by rw [hlm]; exact hf.nodup, fun k hk k' hk' e => ?_⟩
    obtain ⟨k0, h0, rfl⟩ := List.mem_map.1 hk'
    rw [hrl k0 h0] at e
    exact hf.unused k0 h0 (e ▸ hu k hk)
  have he : ∀ k ∈ S.flatten ++ l, ext (ren k) = ext k := by
    intro k hk
    rcases List.mem_append.1 hk with hk | hk
    · rw [hrs k hk]
    · rw [hrl k hk]; exact hf.ext_eq k hk
  obtain ⟨B, e1, hB⟩ := freshLinks_spec hd (newid := newid) (ren := ren) hrs hrl hf.ne_zero (by rw [hlm]; exact hf.nodup)
  have hAB : List.Forall₂ (Renamed ren conj) A B :=
    forall₂_trans (fun a b c h h' => (h.trans h').congr fun _ _ => rfl) hconj hB
  refine ⟨B, e1, ?_, fun τ => ?_⟩
  · have := h.renamed hAB (by rw [hSm]; exact hnd) he
    rwa [hSm, hlm] at this
  · rw [← hlm, amp_renamed h hAB ?_ he τ (fun k => τ (ren k)) fun k _ => rfl]
    · congr 1
      refine h.amp_dep _ _ fun k hk => ?_
      beta_reduce
      rw [hrs k hk]
    · rw [List.map_append]
      have : S.flatten.map ren = S.flatten := by
        conv_rhs => rw [← List.map_id S.flatten]
        exact List.map_congr_left hrs
      rw [this]; exact hnd

omit [CommRing K] [DecidableEq K] in
theorem hasSites {t u : List Key} {l : List Key} : ∀ {left : Option Key} {A : List (DTensor K)} {sB : IndexSet},
    Shape left (A.map (keys ·.is)) (pairs t u) l → t.length = u.length → keys sB = t →
    (A.zip sB).all (fun q => hasIndex q.1.is q.2) = true := by
  intro left A sB hs hl hk
  rw [List.all_eq_true]
  intro q hq
  rw [Verif.Index.IndexSet.hasIndex_iff]
  obtain ⟨n, hn, rfl⟩ := List.mem_iff_getElem.1 hq
  rw [List.length_zip] at hn
  have : ∀ (M : List (List Key)) left S l, Shape left M S l → ∀ n (h : n < M.length) (h' : n < S.length), ∀ k ∈ S[n], k ∈ M[n] := by
    refine Shape.chain ?_ ?_
    · intro left T S hT n h h' k hk
      simp only [List.length_singleton, Nat.lt_one_iff] at h
      subst h
      exact (hT k).2 (Or.inl hk)
    · intro left T U Ts S Ss l ls hT _ ih n h h' k hk
      rcases n with _ | n
      · exact (hT k).2 (Or.inl hk)
      · simp only [List.getElem_cons_succ] at hk ⊢
        exact ih n (by simpa using h) (by simpa using h') k hk
  have hlt : t.length = sB.length := by rw [← hk]; simp [keys]
  have hn' : n < (pairs t u).length := by simp only [pairs, List.length_map, List.length_zip]; omega
  have h1 := this _ _ _ _ hs n (by simp only [List.length_map]; omega) hn' (t[n]'(by omega)) (by simp [pairs])
  rw [List.getElem_map] at h1
  simp only [List.getElem_zip]
  have h2 : t[n]'(by omega) = (sB[n]'(by omega)).key := by subst hk; simp [keys]
  rwa [h2] at h1

theorem firstMiddleLast_eq {T : Type*} {c : List T} (h : 2 ≤ c.length) : firstMiddleLast c = c := by
  rcases c with _ | ⟨a, _ | ⟨b, c⟩⟩
  · simp at h
  · simp at h
  · rw [firstMiddleLast, List.getLast_cons (by simp), List.dropLast_append_getLast]

omit [DecidableEq K] in
theorem map_sumVals {K' : Type*} [CommRing K'] (c : K →+ K') (F : List Nat → K) : ∀ ds : List Nat,
    c (sumVals ds F) = sumVals ds fun v => c (F v) := by
  intro ds
  induction ds generalizing F with
  | nil => rfl
  | cons d ds ih =>
    simp only [sumVals, map_sum]
    exact sum_congr rfl fun v _ => ih _

/-- `B y` at given values of the output sites. -/
theorem applied_vals {ext : Key → Nat} {B y : List (DTensor K)} {t u a l : List Key} (hy : IsMPS ext y u l) (hu : u.Nodup)
    (w : List Nat) (σ : Key → Nat) : applied ext B y u a l (assign σ t w) =
      sumVals (u.map ext) fun v => amp ext B a (assign (assign σ t w) u v) * amp ext y l (assign 0 u v) := by
  unfold applied
  rw [sumOver_vals]
  refine sumVals_congr fun v hv => ?_
  congr 1
  refine hy.amp_dep _ _ fun k hk => ?_
  rw [flatten_single] at hk
  obtain ⟨n, hn, rfl⟩ := List.mem_iff_getElem.1 hk
  have hv' : n < v.length := by rw [hv]; simpa using hn
  rw [assign_getElem hu n hn hv', assign_getElem hu n hn hv']

/-- C105: on two or more sites `inner(A,x,B,y)` is the sum over all values `w` of the output sites of the conjugated component of
`A x` at `w` times the component of `B y` at `w`, when the two operators have the same output sites. The states may have
the same site indices or others, and the same links or others. Every intermediate tensor has at most `d ^ 5` elements.
For operators with other output sites the function does not give this (`C56_match_counterexample`), nor does it on
one site (`C56_AxBy_counterexample`). -/
theorem C105_inner_partial {ext : Key → Nat} {A x B y : List (DTensor K)} {s lx t a u ly b : List Key} (hx : IsMPS ext x s lx)
    (hA : IsMPO ext A t s a) (hB : IsMPO ext B t u b) (hy : IsMPS ext y u ly) (hN : 2 ≤ t.length) (hls : t.length = s.length)
    (hlu : t.length = u.length) (hAx : ∀ k ∈ t, k ∉ s ++ lx) (hBy : (u ++ (t ++ (ly ++ b))).Nodup)
    (hs : ∀ k ∈ s, k ∉ t ++ (ly ++ b)) (conj : K →+* K) {newidA newidx : Key → Nat}
    (hfA : Fresh ext newidA a (s ++ (u ++ (t ++ (ly ++ b)))))
    (hfx : Fresh ext newidx lx (s ++ (u ++ (t ++ (ly ++ (b ++ a.map (simKey newidA)))))))
    {d fuel : Nat} (hd : 1 ≤ d) (hext : ∀ k, ext k ≤ d) (hmax : ((d ^ 5 : Nat) : Int) ≤ offMax) (hfuel : d ^ 5 < fuel)
    (junk fresh : Int → K) :
    innerAxBy fuel junk fresh conj newidA newidx A x B y = some (.ok (sumVals (t.map ext) fun w =>
      conj (sumVals (s.map ext) fun v => amp ext A a (assign (assign 0 t w) s v) * amp ext x lx (assign 0 s v)) *
      sumVals (u.map ext) fun v => amp ext B b (assign (assign 0 t w) u v) * amp ext y ly (assign 0 u v))) := by
  have ndx := hx.nodup
  rw [flatten_single] at ndx
  have hsn := (List.nodup_append.1 ndx).1
  have hun := (List.nodup_append.1 hBy).1
  have hly : y.length = u.length := by simpa using hy.shape.length
  have hlx : x.length = s.length := by simpa using hx.shape.length
  have hlB : B.length = t.length := by
    have := hB.shape.length
    simp only [pairs, List.length_map, List.length_zip] at this
    omega
  have hlA : A.length = t.length := by
    have := hA.shape.length
    simp only [pairs, List.length_map, List.length_zip] at this
    omega
  obtain ⟨sA, e1, k1, _⟩ := siteIndsFrom_spec (prev := []) hA.shape hA.nodup (by simp) (by simp [keys]) (fun T hT => (hA.ok T hT).nodup)
    (pick_op hA hx hls hAx)
  obtain ⟨sB, e2, k2, _⟩ := siteIndsFrom_spec (prev := []) hB.shape hB.nodup (by simp) (by simp [keys]) (fun T hT => (hB.ok T hT).nodup)
    (pick_op hB hy hlu (by
      intro k hk hk'
      simp only [List.nodup_append, List.mem_append] at hBy
      rcases List.mem_append.1 hk' with h | h
      · exact hBy.2.2 k h k (Or.inl hk) rfl
      · exact hBy.2.1.2.2 k hk k (Or.inl h) rfl))
  have e3 : replaceSiteIndsMPO A sA sB = .ok A := by
    have hl : sB.length = A.length := by rw [hlA, ← k2]; simp [keys]
    rw [replaceSiteIndsMPO, if_neg (by omega), if_pos (hasSites hA.shape hls k2)]
  obtain ⟨Ad, e4, hAd, vA⟩ := dagLinks_spec hA conj hfA (by
    intro k hk
    rw [(pairs_perm hls).mem_iff, List.mem_append] at hk
    rcases hk with h | h <;> simp [h])
  obtain ⟨xd, e5, hxd, vx⟩ := dagLinks_spec hx conj hfx (by
    intro k hk
    rw [flatten_single] at hk
    simp [hk])
  have hnewA : ∀ k ∈ a.map (simKey newidA), k ∉ s ++ (u ++ (t ++ (ly ++ b))) := by
    intro k hk
    obtain ⟨k0, h0, rfl⟩ := List.mem_map.1 hk
    exact hfA.unused k0 h0
  have hnewx : ∀ k ∈ lx.map (simKey newidx), k ∉ s ++ (u ++ (t ++ (ly ++ (b ++ a.map (simKey newidA))))) := by
    intro k hk
    obtain ⟨k0, h0, rfl⟩ := List.mem_map.1 hk
    exact hfx.unused k0 h0
  have hrest : (t ++ (ly ++ (b ++ (a.map (simKey newidA) ++ lx.map (simKey newidx))))).Nodup := by
    have e : t ++ (ly ++ (b ++ (a.map (simKey newidA) ++ lx.map (simKey newidx)))) =
        ((t ++ (ly ++ b)) ++ a.map (simKey newidA)) ++ lx.map (simKey newidx) := by simp only [List.append_assoc]
    rw [e, List.nodup_append, List.nodup_append]
    refine ⟨⟨(List.nodup_append.1 hBy).2.1, hfA.nodup, fun k hk k' hk' e => hnewA k' hk' ?_⟩, hfx.nodup, fun k hk k' hk' e => hnewx k' hk' ?_⟩
    · subst e
      exact List.mem_append_right _ (List.mem_append_right _ hk)
    · subst e
      refine List.mem_append_right _ (List.mem_append_right _ ?_)
      simpa only [List.append_assoc] using hk
  have hdis : ∀ {r : List Key}, r.Nodup → (∀ k ∈ r, k ∉ t ++ (ly ++ b)) → (∀ k ∈ r, k ∈ s ++ u) →
      (r ++ (t ++ (ly ++ (b ++ (a.map (simKey newidA) ++ lx.map (simKey newidx)))))).Nodup := by
    intro r hr h1 h2
    rw [List.nodup_append]
    refine ⟨hr, hrest, fun k hk k' hk' e => ?_⟩
    subst e
    have h3 := h1 k hk
    have h4 := h2 k hk
    have h5 := hnewA k
    have h6 := hnewx k
    simp only [List.mem_append, not_or] at h3 h4 h5 h6 hk'
    rcases hk' with h | h | h | h | h
    · exact h3.1 h
    · exact h3.2.1 h
    · exact h3.2.2 h
    · rcases h4 with h4 | h4
      · exact (h5 h).1 h4
      · exact (h5 h).2.1 h4
    · rcases h4 with h4 | h4
      · exact (h6 h).1 h4
      · exact (h6 h).2.1 h4
  have hlAd : Ad.length = t.length := by
    have := hAd.shape.length
    simp only [pairs, List.length_map, List.length_zip] at this
    omega
  have hlxd : xd.length = s.length := by simpa using hxd.shape.length
  rw [innerAxBy, if_neg (by omega)]
  simp only [e1, e2, e3, e4, e5, Res.bind]
  rw [firstMiddleLast_eq (by simp only [List.length_map, List.length_zip]; omega)]
  rw [four_spec hd hext hmax hfuel junk fresh hy hB hAd hxd (by omega) (by omega)
    (hdis hun (fun k hk hk' => (List.nodup_append.1 hBy).2.2 k hk k hk' rfl) fun k hk => by simp [hk])
    (hdis hsn hs fun k hk => by simp [hk]) 0, sumOver_vals]
  congr 2
  refine sumVals_congr fun w _ => ?_
  rw [applied_vals hy hun, applied_vals hxd hsn, mul_comm]
  congr 1
  rw [show conj (sumVals (s.map ext) fun v => amp ext A a (assign (assign 0 t w) s v) * amp ext x lx (assign 0 s v)) = _ from
    map_sumVals (conj : K →+ K) _ _]
  refine sumVals_congr fun v _ => ?_
  rw [vA, vx]
  exact (map_mul conj _ _).symm

end Verif.MPS
