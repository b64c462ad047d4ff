import Verif.MPS.InitStateProps

/-! # The tensors of a product state with quantum numbers -/

namespace Verif.MPS

open Verif.Index (Index IndexSet)
open Verif.Index.IndexSet (keys Key commonInds)
open Verif.QDense
open Verif.QN (QN IsQN norm norm_add_norm_left norm_add_norm_right norm_neg_norm norm_norm)
open Verif.Tensor
open Verif.Net (DTensor)

/-- The link `i` with quantum number `q`. -/
def lk (lnk : Nat → Nat × Verif.TagSet.TagSet) (i : Nat) (q : QN) : Index := ⟨(lnk i).1, 1, 1, (lnk i).2, [(q, 1)]⟩

/-- What `==` sees of the link `i`. -/
def linkKey (lnk : Nat → Nat × Verif.TagSet.TagSet) (i : Nat) : Key :=
  ((lnk i).1, (lnk i).2.plev, (lnk i).2.size, (lnk i).2.live)

theorem lk_key (lnk : Nat → Nat × Verif.TagSet.TagSet) (i : Nat) (q : QN) : (lk lnk i q).key = linkKey lnk i := rfl

section
variable {K : Type*} [CommRing K]

/-- The element of a tensor for given values of the indices. -/
def eltOf (T : QTensor K) (τ : Key → Nat) : K :=
  match T.store with
  | none => 0
  | some d => match getElt d T.is (T.is.map fun I => τ I.key) with
    | .ok x => x
    | _ => 0

/-- The number of values of an index with quantum numbers. -/
def qdim (I : Index) : Nat := (I.qns.map (·.2)).sum

/-- The tensor of one site of a product state: 1 for the state of the site, 0 for the others; flux `f`. -/
structure Site (M : Verif.QN.Name → Int) (f : Verif.QN.Name → Int) (v : IVal) (is : IndexSet) (T : QTensor K) : Prop where
  inds : T.is = is
  ne : T.store ≠ none
  elt : ∀ τ : Key → Nat, (∀ I ∈ is, τ I.key < qdim I) → eltOf T τ = if τ v.1.key = v.2 then 1 else 0
  div : ∃ q, fluxT T = .ok q ∧ IsQN M q ∧ ∀ n, q.val n = f n

theorem exists_env {is : IndexSet} (h : (keys is).Nodup) : ∃ env : Key → List (QN × Nat), ∀ I ∈ is, I.qns = env I.key := by
  induction is with
  | nil => exact ⟨fun _ => [], by simp⟩
  | cons I is ih =>
    simp only [keys, List.map_cons, List.nodup_cons] at h
    obtain ⟨env, he⟩ := ih h.2
    refine ⟨Function.update env I.key I.qns, ?_⟩
    intro J hJ
    rcases List.mem_cons.1 hJ with rfl | hJ
    · simp
    · rw [Function.update_of_ne, he J hJ]
      intro e
      exact h.1 (e ▸ List.mem_map_of_mem hJ)

theorem eltVal_map (w : List IVal) (n : Verif.QN.Name) :
    eltVal (w.map (·.1)) (w.map (·.2)) n = (w.map fun x => (sectorQN x.1.qns x.2).val n * x.1.dir).sum := by
  unfold eltVal
  induction w with
  | nil => rfl
  | cons x w ih => simp only [List.map_cons, List.zipWith_cons_cons, List.sum_cons, ih]

variable {M : Verif.QN.Name → Int} {u : List Verif.QN.Name}

/-- A link value as `init_tensors` uses it. -/
def IsLink (M : Verif.QN.Name → Int) (u : List Verif.QN.Name) (x : IVal) : Prop :=
  x.2 = 0 ∧ ∃ q, x.1.qns = [(q, 1)] ∧ QOK M u q ∧ (x.1.dir = 1 ∨ x.1.dir = -1)

theorem site_mk (hu : u.length ≤ 4) {fuel : Nat} {v : IVal} (hv : SiteOK M u fuel v) {w : List IVal} (hw : ∀ x ∈ w, x = v ∨ IsLink M u x)
    (hm : v ∈ w) (hnd : (keys (w.map (·.1))).Nodup) (hnb : (nb (w.map (·.1))).prod = v.1.nblock) :
    ∃ T : QTensor K, setEltQ fuel w = some (.ok T) ∧
      Site M (fun n => norm (M n) ((w.map fun x => (sectorQN x.1.qns x.2).val n * x.1.dir).sum)) v (w.map (·.1)) T := by
  obtain ⟨env, he⟩ := exists_env hnd
  have hG : GoodIs M u env (w.map (·.1)) := by
    refine ⟨hnd, he, ?_, ?_, ?_, hu, ?_⟩
    · intro I hI s hs
      obtain ⟨x, hx, rfl⟩ := List.mem_map.1 hI
      rcases hw x hx with rfl | ⟨_, q, h1, _⟩
      · exact hv.pos s hs
      · rw [h1] at hs; simp at hs; subst hs; exact Nat.one_pos
    · intro I hI
      obtain ⟨x, hx, rfl⟩ := List.mem_map.1 hI
      rcases hw x hx with rfl | ⟨_, q, h1, _⟩
      · exact hv.ne
      · simp [Index.nblock, h1]
    · intro I hI
      obtain ⟨x, hx, rfl⟩ := List.mem_map.1 hI
      rcases hw x hx with rfl | ⟨_, q, h1, _, h3⟩
      · exact Or.inl hv.dir
      · exact h3
    · intro I hI s hs
      obtain ⟨x, hx, rfl⟩ := List.mem_map.1 hI
      rcases hw x hx with rfl | ⟨_, q, h1, h2, _⟩
      · exact hv.ok s hs
      · rw [h1] at hs; simp at hs; subst hs; exact h2
  have hval : Valid (dims (w.map (·.1))) (w.map (·.2)) := by
    unfold Valid dims
    rw [List.map_map, List.forall₂_map_right_iff, List.forall₂_map_left_iff, List.forall₂_same]
    intro x hx
    rcases hw x hx with rfl | ⟨h0, q, h1, _⟩
    · exact hv.val
    · simp [szs, h1, h0]
  obtain ⟨d, div, h1, h2, h3, h4, h5⟩ := setEltQ_spec (K := K) (fuel := fuel) hG (List.ne_nil_of_mem hm) (by rw [hnb]; exact hv.fuel)
    (by rw [hnb]; exact hv.max) hval
  refine ⟨_, h1, rfl, by simp, ?_, div, ?_, h4, fun n => by rw [h5, eltVal_map]⟩
  · intro τ hτ
    unfold eltOf
    have hi : Valid (dims (w.map (·.1))) ((w.map (·.1)).map fun I => τ I.key) := by
      unfold Valid dims
      rw [List.forall₂_map_right_iff, List.forall₂_map_left_iff, List.forall₂_same]
      exact hτ
    simp only [h2 _ hi]
    congr 1
    rw [List.map_map, eq_iff_iff, List.map_inj_left]
    constructor
    · intro h; exact h v hm
    · intro h x hx
      rcases hw x hx with rfl | ⟨h0, q, h1, _⟩
      · exact h
      · have := hτ x.1 (List.mem_map_of_mem hx)
        simp only [qdim, h1, List.map_cons, List.map_nil, List.sum_cons, List.sum_nil] at this
        simp only [Function.comp, h0]; omega
  · have hq : Verif.Index.IndexSet.hasQNs (w.map (·.1)) = true := hasQNs_good hG (by simpa using List.ne_nil_of_mem hm)
    simp [fluxT, hq, h3]

theorem isLink_lk (lnk : Nat → Nat × Verif.TagSet.TagSet) (i : Nat) {q : QN} (hq : QOK M u q) : IsLink M u (lk lnk i q, 0) :=
  ⟨rfl, q, rfl, hq, Or.inl rfl⟩

theorem isLink_dag (lnk : Nat → Nat × Verif.TagSet.TagSet) (i : Nat) {q : QN} (hq : QOK M u q) : IsLink M u ((lk lnk i q).dag, 0) :=
  ⟨rfl, q, rfl, hq, Or.inr rfl⟩

theorem sector_lk (lnk : Nat → Nat × Verif.TagSet.TagSet) (i : Nat) (q : QN) : sectorQN (lk lnk i q).qns 0 = q := by
  simp [lk, sectorQN]

/-- The indices of the tensors after the first. -/
def restInds (p : Index) (vs : List IVal) (as : IndexSet) : List IndexSet := (restVals p vs as).map (·.map (·.1))

/-- The tensors after the first have no flux. -/
theorem rest_ok (hu : u.length ≤ 4) {fuel : Nat} (lnk : Nat → Nat × Verif.TagSet.TagSet) : ∀ {vs : List IVal} {k : Nat} {q : QN},
    vs ≠ [] → (∀ v ∈ vs, SiteOK M u fuel v) → QOK M u q → (∀ n, q.val n = norm (M n) (qsum vs n)) →
    ((vs.map (·.1.key)) ++ (List.range' k (vs.length + 1)).map (linkKey lnk)).Nodup →
    ∃ qs, linkQNs q vs = .ok qs ∧ qs.length = vs.length ∧ ∃ A : List (QTensor K),
      setAllQ fuel (restVals (lk lnk k q) vs (qnLinks lnk (k + 1) qs)) = some (.ok A) ∧
      List.Forall₂ (fun v T => ∃ is, Site M (fun _ => 0) v is T) vs A ∧
      A.map (·.is) = restInds (lk lnk k q) vs (qnLinks lnk (k + 1) qs)
  | [], _, _, h, _, _, _, _ => absurd rfl h
  | [v], k, q, _, hv, hq, hs, hnd => by
    have hv1 := hv v (by simp)
    obtain ⟨h1, h2⟩ := ivQN_ok hv1
    simp only [List.map_cons, List.map_nil, List.length_cons, List.length_nil, List.range'_succ, List.range'_zero, List.cons_append,
      List.nil_append, List.nodup_cons, List.mem_cons, List.not_mem_nil] at hnd
    obtain ⟨T, t1, t2⟩ := site_mk (K := K) hu hv1 (w := [((lk lnk k q).dag, 0), v])
      (by
        intro x hx
        rcases List.mem_cons.1 hx with rfl | hx
        · exact Or.inr (isLink_dag lnk k hq)
        · left; simpa using hx)
      (by simp) (by
        have := hnd.1
        simp only [keys, List.map_cons, List.map_nil, List.nodup_cons, Verif.Index.Index.key_dag, lk_key, List.mem_cons, List.not_mem_nil]
        simp only [or_false, not_or, not_false_eq_true, true_and, List.nodup_nil, and_true] at this ⊢
        exact fun e => this.1 e.symm)
      (by simp [nb, Index.nblock, lk, Index.dag])
    refine ⟨_, by rw [linkQNs, h1, Res.bind_ok]; rfl, rfl, [T], ?_, ?_, ?_⟩
    · simp only [restVals, setAllQ, t1, Run.bind_ok]
    · refine List.Forall₂.cons ⟨_, t2.inds, t2.ne, t2.elt, ?_⟩ List.Forall₂.nil
      obtain ⟨d, d1, d2, d3⟩ := t2.div
      refine ⟨d, d1, d2, fun n => ?_⟩
      rw [d3]
      simp only [List.map_cons, List.map_nil, List.sum_cons, List.sum_nil]
      have e1 : sectorQN (lk lnk k q).dag.qns 0 = q := sector_lk lnk k q
      have e2 : (lk lnk k q).dag.dir = -1 := rfl
      rw [e1, e2, hv1.dir, hs]
      simp only [qsum, List.map_cons, List.map_nil, List.sum_cons, List.sum_nil, siteQN]
      rw [show norm (M n) ((sectorQN v.1.qns v.2).val n + 0) * -1 = - norm (M n) ((sectorQN v.1.qns v.2).val n + 0) by ring,
        ← norm_add_norm_left, norm_neg_norm, norm_add_norm_left]
      simp
    · simp [restInds, restVals, t2.inds]
  | v :: v' :: vs, k, q, _, hv, hq, hs, hnd => by
    have hv1 := hv v (by simp)
    obtain ⟨h1, h2⟩ := ivQN_ok hv1
    obtain ⟨h3, h4⟩ := nextQN_ok hu hq h2
    have hs' : ∀ n, (nextQN q (siteQN v)).val n = norm (M n) (qsum (v' :: vs) n) := by
      intro n
      rw [h4, hs, Int.sub_eq_add_neg, norm_add_norm_left]
      simp only [qsum, List.map_cons, List.sum_cons]
      congr 1; ring
    have hsub : ((v' :: vs).map (·.1.key) ++ (List.range' (k + 1) ((v' :: vs).length + 1)).map (linkKey lnk)).Nodup := by
      refine List.Nodup.sublist ?_ hnd
      rw [show (v :: v' :: vs).length + 1 = ((v' :: vs).length + 1) + 1 from rfl, List.range'_succ]
      simp only [List.map_cons, List.cons_append]
      exact List.Sublist.cons _ ((List.Sublist.refl _).append (List.sublist_cons_self _ _) |>.cons_cons _)
    obtain ⟨qs, r1, r2, A, r3, r4, r5⟩ := rest_ok hu lnk (vs := v' :: vs) (k := k + 1) (q := nextQN q (siteQN v)) (by simp)
      (fun w hw => hv w (by simp only [List.mem_cons] at hw ⊢; tauto)) h3 hs' hsub
    have hk : v.1.key ∉ (List.range' k (vs.length + 3)).map (linkKey lnk) := by
      intro hm
      simp only [List.map_cons, List.cons_append, List.nodup_cons, List.mem_append, List.mem_cons] at hnd
      exact hnd.1 (Or.inr (Or.inr hm))
    have hkl : linkKey lnk k ≠ linkKey lnk (k + 1) := by
      intro e
      have := (List.nodup_append.1 hnd).2.1
      simp only [List.length_cons, List.range'_succ, List.map_cons, List.nodup_cons, List.mem_cons] at this
      exact this.1 (Or.inl e)
    have hk1 : v.1.key ≠ linkKey lnk k := fun e => hk (by simp [List.range'_succ, e])
    have hk2 : v.1.key ≠ linkKey lnk (k + 1) := fun e => hk (by simp [List.range'_succ, e])
    obtain ⟨T, t1, t2⟩ := site_mk (K := K) hu hv1 (w := [((lk lnk k q).dag, 0), v, (lk lnk (k + 1) (nextQN q (siteQN v)), 0)])
      (by
        intro x hx
        simp only [List.mem_cons, List.not_mem_nil, or_false] at hx
        rcases hx with rfl | rfl | rfl
        · exact Or.inr (isLink_dag lnk k hq)
        · exact Or.inl rfl
        · exact Or.inr (isLink_lk lnk (k + 1) h3))
      (by simp) (by
        simp only [keys, List.map_cons, List.map_nil, List.nodup_cons, Verif.Index.Index.key_dag, lk_key, List.mem_cons, List.not_mem_nil]
        simp only [or_false, not_or, not_false_eq_true, List.nodup_nil, and_true]
        exact ⟨⟨fun e => hk1 e.symm, hkl⟩, hk2⟩)
      (by simp [nb, Index.nblock, lk, Index.dag])
    refine ⟨nextQN q (siteQN v) :: qs, by rw [linkQNs, h1, Res.bind_ok, r1]; rfl, by simp [r2], T :: A, ?_, ?_, ?_⟩
    · simp only [qnLinks, restVals, setAllQ]
      have : setEltQ fuel [((lk lnk k q).dag, 0), v, ((⟨(lnk (k + 1)).1, 1, 1, (lnk (k + 1)).2, [(nextQN q (siteQN v), 1)]⟩ : Index), 0)] =
        some (.ok T) := t1
      rw [this, Run.bind_ok]
      have : setAllQ fuel (restVals (⟨(lnk (k + 1)).1, 1, 1, (lnk (k + 1)).2, [(nextQN q (siteQN v), 1)]⟩ : Index) (v' :: vs)
        (qnLinks lnk (k + 1 + 1) qs)) = some (.ok A) := r3
      rw [this, Run.bind_ok]
    · refine List.Forall₂.cons ⟨_, t2.inds, t2.ne, t2.elt, ?_⟩ r4
      obtain ⟨d, d1, d2, d3⟩ := t2.div
      refine ⟨d, d1, d2, fun n => ?_⟩
      rw [d3]
      simp only [List.map_cons, List.map_nil, List.sum_cons, List.sum_nil]
      have e1 : sectorQN (lk lnk k q).dag.qns 0 = q := sector_lk lnk k q
      have e2 : (lk lnk k q).dag.dir = -1 := rfl
      have e3 : (lk lnk (k + 1) (nextQN q (siteQN v))).dir = 1 := rfl
      rw [e1, e2, sector_lk, e3, hv1.dir, h4]
      rw [show q.val n * -1 + ((sectorQN v.1.qns v.2).val n * 1 + (norm (M n) (q.val n - (siteQN v).val n) * 1 + 0)) =
        (- q.val n + (siteQN v).val n) + norm (M n) (q.val n - (siteQN v).val n) by simp only [siteQN]; ring, norm_add_norm_right]
      rw [show -q.val n + (siteQN v).val n + (q.val n - (siteQN v).val n) = 0 by ring, Verif.QN.norm_zero]
    · have r5' : A.map (·.is) = (restVals (⟨(lnk (k + 1)).1, 1, 1, (lnk (k + 1)).2, [(nextQN q (siteQN v), 1)]⟩ : Index) (v' :: vs)
        (qnLinks lnk (k + 1 + 1) qs)).map (·.map (·.1)) := r5
      simp only [restInds, qnLinks, restVals, List.map_cons, t2.inds, r5']
      rfl

end

end Verif.MPS
