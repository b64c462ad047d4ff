import Verif.MPS.InitStateC101

/-! # Product states without quantum numbers -/

namespace Verif.MPS

open Verif.Index (Index IndexSet)
open Verif.Index.IndexSet (keys Key replTemp)
open Verif.Tensor
open Verif.Net (DTensor)

/-- The link `i`. -/
def dlk (lnk : Nat → Nat × Verif.TagSet.TagSet) (i : Nat) : Index := ⟨(lnk i).1, 1, 1, (lnk i).2, []⟩

/-- A site index with a value in range. -/
structure SiteD (ext : Key → Nat) (v : IVal) : Prop where
  plain : Plain v.1
  dim : v.1.dim = ext v.1.key
  val : v.2 < v.1.dim

/-- The names of the links are as `generateID()` and `"Link,l=i"` give them. -/
structure LinkD (ext : Key → Nat) (lnk : Nat → Nat × Verif.TagSet.TagSet) : Prop where
  id : ∀ i, (lnk i).1 ≠ 0
  lo : ∀ i, 0 ≤ (lnk i).2.plev
  hi : ∀ i, (lnk i).2.plev < replTemp
  ext : ∀ i, ext (linkKey lnk i) = 1

section
variable {K : Type*} [CommRing K] {ext : Key → Nat} {lnk : Nat → Nat × Verif.TagSet.TagSet}

/-- Tensor of a site. -/
structure SiteT (ext : Key → Nat) (v : IVal) (T : DTensor K) : Prop where
  ok : T.OK ext
  plain : ∀ i ∈ T.is, Plain i
  mem : v.1 ∈ T.is
  elt : ∀ σ : Key → Nat, (∀ i ∈ T.is, σ i.key < i.dim) → T.sem.val σ = if σ v.1.key = v.2 then 1 else 0

theorem siteD_mk (hl : LinkD ext lnk) {v : IVal} (hv : SiteD ext v) {w : List IVal}
    (hw : ∀ x ∈ w, x = v ∨ ∃ i, x = (dlk lnk i, 0) ∨ x = ((dlk lnk i).dag, 0)) (hm : v ∈ w) (hnd : (keys (w.map (·.1))).Nodup) :
    SiteT ext v (setEltD w : DTensor K) := by
  have hlk : ∀ x ∈ w, x = v ∨ (Plain x.1 ∧ x.1.dim = 1 ∧ x.2 = 0 ∧ x.1.dim = ext x.1.key) := by
    intro x hx
    rcases hw x hx with h | ⟨i, rfl | rfl⟩
    · exact Or.inl h
    · exact Or.inr ⟨⟨Or.inl rfl, hl.id i, rfl, hl.lo i, hl.hi i⟩, rfl, rfl, (hl.ext i).symm⟩
    · exact Or.inr ⟨⟨Or.inr rfl, hl.id i, rfl, hl.lo i, hl.hi i⟩, rfl, rfl, (hl.ext i).symm⟩
  have hp : ∀ I ∈ w.map (·.1), Plain I := by
    intro I hI
    obtain ⟨x, hx, rfl⟩ := List.mem_map.1 hI
    rcases hlk x hx with rfl | h
    · exact hv.plain
    · exact h.1
  refine ⟨⟨hnd, ?_, ?_, fun I hI => (hp I hI).qns⟩, hp, List.mem_map_of_mem hm, ?_⟩
  · intro I hI
    obtain ⟨x, hx, rfl⟩ := List.mem_map.1 hI
    rcases hlk x hx with rfl | h
    · exact hv.dim
    · exact h.2.2.2
  · intro I hI
    obtain ⟨x, hx, rfl⟩ := List.mem_map.1 hI
    rcases hlk x hx with rfl | h
    · have := hv.val; omega
    · rw [h.2.1]; exact Nat.one_pos
  · intro σ hσ
    have h1 : Valid ((w.map (·.1)).map (·.dim)) ((w.map (·.1)).map fun I => σ I.key) := by
      unfold Valid
      rw [List.forall₂_map_right_iff, List.forall₂_map_left_iff, List.forall₂_same]
      exact hσ
    have h2 : Valid ((w.map (·.1)).map (·.dim)) (w.map (·.2)) := by
      unfold Valid
      rw [List.map_map, List.forall₂_map_right_iff, List.forall₂_map_left_iff, List.forall₂_same]
      intro x hx
      rcases hlk x hx with rfl | h
      · exact hv.val
      · show x.2 < x.1.dim; omega
    simp only [DTensor.sem, setEltD]
    refine if_congr ?_ rfl rfl
    rw [Int.natCast_inj]
    constructor
    · intro e
      have := congrArg (unrank ((w.map (·.1)).map (·.dim))) e
      rw [unrank_rank h1, unrank_rank h2, List.map_map, List.map_inj_left] at this
      exact this v hm
    · intro e
      congr 1
      rw [List.map_map, List.map_inj_left]
      intro x hx
      rcases hlk x hx with rfl | h
      · exact e
      · have := hσ x.1 (List.mem_map_of_mem hx)
        simp only [Function.comp]
        omega

theorem shape_pair {T S : List Key} {p : Key} : (∀ k, k ∈ T ↔ k ∈ S ∨ some p = some k) ↔ ∀ k, k ∈ T ↔ k ∈ S ∨ k = p := by
  refine forall_congr' fun k => ?_
  rw [Option.some.injEq, eq_comm (a := p)]

theorem restD_ok (K : Type*) [CommRing K] {ext : Key → Nat} {lnk : Nat → Nat × Verif.TagSet.TagSet} (hl : LinkD ext lnk) : ∀ {vs : List IVal} {k : Nat}, vs ≠ [] → (∀ v ∈ vs, SiteD ext v) →
    ((vs.map (·.1.key)) ++ (List.range' k vs.length).map (linkKey lnk)).Nodup →
    ∃ A : List (DTensor K), (restVals (dlk lnk k) vs (denseLinks lnk (k + 1) vs.length)).map setEltD = A ∧
      List.Forall₂ (SiteT ext) vs A ∧
      Shape (some (linkKey lnk k)) (A.map (keys ·.is)) (vs.map fun v => [v.1.key]) ((List.range' (k + 1) (vs.length - 1)).map (linkKey lnk))
  | [], _, h, _, _ => absurd rfl h
  | [v], k, _, hv, hnd => by
    have hv1 := hv v (by simp)
    have hk1 : v.1.key ≠ linkKey lnk k := by
      intro e
      simp [List.range'_succ, e] at hnd
    have hT := siteD_mk (K := K) hl hv1 (w := [((dlk lnk k).dag, 0), v])
      (by
        intro x hx
        simp only [List.mem_cons, List.not_mem_nil, or_false] at hx
        rcases hx with rfl | rfl
        · exact Or.inr ⟨k, Or.inr rfl⟩
        · exact Or.inl rfl)
      (by simp) (by
        simp only [keys, List.map_cons, List.map_nil, List.nodup_cons, List.mem_cons, List.not_mem_nil, or_false, not_false_eq_true, List.nodup_nil,
          and_true]
        exact fun e => hk1 e.symm)
    refine ⟨_, rfl, List.Forall₂.cons hT List.Forall₂.nil, ?_⟩
    simp only [restVals, List.map_cons, List.map_nil, List.length_cons, List.length_nil, Nat.sub_self, List.range'_zero, Shape, Nat.zero_add]
    intro x
    simp only [setEltD, keys, List.map_cons, List.map_nil, List.mem_cons, List.not_mem_nil, or_false, Option.some.injEq]
    show x = linkKey lnk k ∨ x = v.1.key ↔ _
    rw [or_comm, eq_comm (a := x) (b := linkKey lnk k)]
  | v :: v' :: vs, k, _, hv, hnd => by
    have hv1 := hv v (by simp)
    have hsub : ((v' :: vs).map (·.1.key) ++ (List.range' (k + 1) (v' :: vs).length).map (linkKey lnk)).Nodup := by
      refine List.Nodup.sublist ?_ hnd
      rw [show (v :: v' :: vs).length = (v' :: vs).length + 1 from rfl, List.range'_succ]
      simp only [List.map_cons, List.cons_append]
      exact List.Sublist.cons _ ((List.Sublist.refl _).append (List.sublist_cons_self _ _) |>.cons_cons _)
    obtain ⟨A, r1, r2, r3⟩ := restD_ok K hl (vs := v' :: vs) (k := k + 1) (by simp)
      (fun w hw => hv w (by simp only [List.mem_cons] at hw ⊢; tauto)) hsub
    have hk : v.1.key ∉ (List.range' k (vs.length + 2)).map (linkKey lnk) := by
      intro hm
      simp only [List.map_cons, List.cons_append, List.nodup_cons, List.mem_append, List.mem_cons] at hnd
      exact hnd.1 (Or.inr (Or.inr hm))
    have hkl : linkKey lnk k ≠ linkKey lnk (k + 1) := by
      intro e
      have := (List.nodup_append.1 hnd).2.1
      simp only [List.length_cons, List.range'_succ, List.map_cons, List.nodup_cons, List.mem_cons] at this
      exact this.1 (Or.inl e)
    have hk1 : v.1.key ≠ linkKey lnk k := fun e => hk (by simp [List.range'_succ, e])
    have hk2 : v.1.key ≠ linkKey lnk (k + 1) := fun e => hk (by simp [List.range'_succ, e])
    have hT := siteD_mk (K := K) hl hv1 (w := [((dlk lnk k).dag, 0), v, (dlk lnk (k + 1), 0)])
      (by
        intro x hx
        simp only [List.mem_cons, List.not_mem_nil, or_false] at hx
        rcases hx with rfl | rfl | rfl
        · exact Or.inr ⟨k, Or.inr rfl⟩
        · exact Or.inl rfl
        · exact Or.inr ⟨k + 1, Or.inl rfl⟩)
      (by simp) (by
        simp only [keys, List.map_cons, List.map_nil, List.nodup_cons, List.mem_cons, List.not_mem_nil, or_false, not_or, not_false_eq_true,
          List.nodup_nil, and_true]
        exact ⟨⟨fun e => hk1 e.symm, hkl⟩, hk2⟩)
    have hA : A ≠ [] := by
      intro e; rw [e] at r2; cases r2
    obtain ⟨U, As, rfl⟩ := List.exists_cons_of_ne_nil hA
    refine ⟨setEltD [((dlk lnk k).dag, 0), v, (dlk lnk (k + 1), 0)] :: U :: As, ?_, List.Forall₂.cons hT r2, ?_⟩
    · rw [show (v :: v' :: vs).length = (v' :: vs).length + 1 from rfl]
      simp only [denseLinks, restVals, List.map_cons]
      exact congrArg₂ List.cons rfl r1
    · rw [show (v :: v' :: vs).length - 1 = ((v' :: vs).length - 1) + 1 by simp, List.range'_succ]
      simp only [List.map_cons, Shape] at r3 ⊢
      refine ⟨fun x => ?_, r3⟩
      simp only [setEltD, keys, List.map_cons, List.map_nil, List.mem_cons, List.not_mem_nil, or_false, Option.some.injEq]
      show x = linkKey lnk k ∨ x = v.1.key ∨ x = linkKey lnk (k + 1) ↔ _
      rw [eq_comm (a := linkKey lnk k)]
      tauto

theorem prod_onesD {vs : List IVal} {A : List (DTensor K)} (h : List.Forall₂ (SiteT ext) vs A) (τ : Key → Nat)
    (hτ : ∀ T ∈ A, ∀ i ∈ T.is, τ i.key < i.dim) :
    (A.map fun T => T.sem.val τ).prod = if ∀ w ∈ vs, τ w.1.key = w.2 then 1 else 0 := by
  induction h with
  | nil => simp
  | @cons w U vs A h1 _ ih =>
    rw [List.map_cons, List.prod_cons, ih fun U hU => hτ U (by simp [hU]), h1.elt τ (hτ U (by simp))]
    by_cases e : τ w.1.key = w.2
    · rw [if_pos e, one_mul]
      exact if_congr (by rw [List.forall_mem_cons]; exact (and_iff_right e).symm) rfl rfl
    · rw [if_neg e, zero_mul, if_neg fun h => e (h w (by simp))]

/-- **C101 (two or more sites, no quantum numbers).** `MPS(InitState)` is a matrix product state with the indices of the
sites; its component is 1 for the values asked for and 0 for all others. -/
theorem C101_dense_partial (hl : LinkD ext lnk) {vs : List IVal} (hN : 2 ≤ vs.length) (hv : ∀ v ∈ vs, SiteD ext v)
    (hnd : (vs.map (·.1.key) ++ (List.range' 1 (vs.length - 1)).map (linkKey lnk)).Nodup) :
    ∃ A : List (DTensor K), initD lnk vs = .ok A ∧
      IsMPS ext A (vs.map (·.1.key)) ((List.range' 1 (vs.length - 1)).map (linkKey lnk)) ∧
      ∀ σ : Key → Nat, (∀ v ∈ vs, σ v.1.key < v.1.dim) →
        amp ext A ((List.range' 1 (vs.length - 1)).map (linkKey lnk)) σ = if ∀ v ∈ vs, σ v.1.key = v.2 then 1 else 0 := by
  rcases vs with _ | ⟨v, _ | ⟨v', vs⟩⟩
  · simp at hN
  · simp at hN
  have hv1 := hv v (by simp)
  have hnd0 := hnd
  rw [show (v :: v' :: vs).length - 1 = (v' :: vs).length by simp] at hnd ⊢
  obtain ⟨A, r1, r2, r3⟩ := restD_ok K hl (vs := v' :: vs) (k := 1) (by simp)
    (fun w hw => hv w (by simp only [List.mem_cons] at hw ⊢; tauto)) (by
      refine List.Nodup.sublist ?_ hnd
      rw [List.map_cons (l := v' :: vs), List.cons_append]
      exact List.sublist_cons_self _ _)
  have hk1 : v.1.key ≠ linkKey lnk 1 := by
    intro e
    simp [List.range'_succ, e] at hnd
  have hT := siteD_mk (K := K) hl hv1 (w := [v, (dlk lnk 1, 0)])
    (by
      intro x hx
      simp only [List.mem_cons, List.not_mem_nil, or_false] at hx
      rcases hx with rfl | rfl
      · exact Or.inl rfl
      · exact Or.inr ⟨1, Or.inl rfl⟩)
    (by simp) (by
      simp only [keys, List.map_cons, List.map_nil, List.nodup_cons, List.mem_cons, List.not_mem_nil, or_false, not_false_eq_true, List.nodup_nil,
        and_true]
      exact hk1)
  have hF : List.Forall₂ (SiteT ext) (v :: v' :: vs) (setEltD [v, (dlk lnk 1, 0)] :: A) := List.Forall₂.cons hT r2
  have hsh : Shape none ((setEltD [v, (dlk lnk 1, 0)] :: A).map (keys ·.is)) (((v :: v' :: vs).map (·.1.key)).map fun k => [k])
      ((List.range' 1 (v' :: vs).length).map (linkKey lnk)) := by
    have hA : A ≠ [] := by
      intro e; rw [e] at r2; cases r2
    obtain ⟨U, As, rfl⟩ := List.exists_cons_of_ne_nil hA
    rw [show (v' :: vs).length = ((v' :: vs).length - 1) + 1 by simp, List.range'_succ]
    simp only [List.map_cons, Shape, List.map_map] at r3 ⊢
    refine ⟨fun x => ?_, ?_⟩
    · simp only [setEltD, keys, List.map_cons, List.map_nil, List.mem_cons, List.not_mem_nil, or_false]
      show x = v.1.key ∨ x = linkKey lnk 1 ↔ _
      simp
    · exact r3
  refine ⟨setEltD [v, (dlk lnk 1, 0)] :: A, ?_, ⟨hsh, ?_, ?_, ?_⟩, ?_⟩
  · unfold initD
    rw [show (v :: v' :: vs).length = (v' :: vs).length + 1 from rfl]
    simp only [denseLinks, List.map_cons]
    exact congrArg Res.ok (congrArg₂ List.cons rfl r1)
  · rw [flatten_single]; exact hnd
  · intro T hT
    obtain ⟨w, _, h⟩ := forall₂_right hF hT
    exact h.ok
  · intro T hT
    obtain ⟨w, _, h⟩ := forall₂_right hF hT
    exact h.plain
  · intro σ hσ
    unfold amp
    rw [sumOver_ones _ _ _ fun k hk => by obtain ⟨i, _, rfl⟩ := List.mem_map.1 hk; exact hl.ext i]
    have hσk : ∀ w ∈ v :: v' :: vs, w.1.key ∉ (List.range' 1 (v' :: vs).length).map (linkKey lnk) := by
      intro w hw hm
      exact (List.nodup_append.1 hnd).2.2 _ (List.mem_map_of_mem hw) _ hm rfl
    rw [prod_onesD hF]
    · refine if_congr (forall₂_congr fun w hw => ?_) rfl rfl
      rw [if_neg (hσk w hw)]
    · intro T hT i hi
      obtain ⟨w, _, h⟩ := forall₂_right hF hT
      have hpos := h.ok.pos i hi
      split
      · exact hpos
      · rename_i hnl
        have hocc : i.key ∈ ((v :: v' :: vs).map (·.1.key)) ∨ i.key ∈ (List.range' 1 (v' :: vs).length).map (linkKey lnk) := by
          obtain ⟨q1, q2, q3⟩ := hsh.names
          obtain ⟨n, hn, en⟩ := List.getElem_of_mem (List.mem_map_of_mem (f := (keys ·.is)) hT)
          rcases q3 n hn (by omega) i.key (by rw [en]; exact List.mem_map_of_mem hi) with h | h | h
          · rw [List.getElem_map, List.mem_singleton] at h
            rw [h]
            exact Or.inl (List.getElem_mem _)
          · exact Or.inr h
          · cases h
        rcases hocc with e | e
        · obtain ⟨x, hx, ex⟩ := List.mem_map.1 e
          rw [h.ok.dims i hi, ← ex, ← (hv x hx).dim]
          exact hσ x hx
        · exact absurd e hnl

theorem sumVals_congr_valid {f g : List Nat → K} : ∀ {ds : List Nat}, (∀ v, Valid ds v → f v = g v) → sumVals ds f = sumVals ds g := by
  intro ds
  induction ds generalizing f g with
  | nil => intro h; exact h [] List.Forall₂.nil
  | cons d ds ih =>
    intro h
    refine Finset.sum_congr rfl fun v hv => ih fun vs hvs => h _ (List.Forall₂.cons (Finset.mem_range.1 hv) hvs)

theorem sumVals_zero : ∀ {ds : List Nat}, sumVals ds (fun _ => (0 : K)) = 0 := by
  intro ds
  induction ds with
  | nil => rfl
  | cons d ds ih => simp [sumVals, ih]

theorem sumVals_delta : ∀ {ds a : List Nat}, Valid ds a → sumVals ds (fun v => if v = a then (1 : K) else 0) = 1 := by
  intro ds a h
  unfold Valid at h
  induction h with
  | nil => rfl
  | @cons x d a ds h1 _ ih =>
    rw [sumVals, Finset.sum_eq_single_of_mem x (Finset.mem_range.2 h1)]
    · simp only [List.cons.injEq, true_and]; exact ih
    · intro b _ hb
      simp only [List.cons.injEq, hb, false_and, if_false]
      exact sumVals_zero

theorem assign_vals {s : List Key} (hs : s.Nodup) {v : List Nat} (hv : v.length = s.length) : s.map (assign 0 s v) = v := by
  refine List.ext_getElem (by simp [hv]) fun n h1 h2 => ?_
  rw [List.getElem_map, assign_getElem hs n (by omega) h2]

theorem agree_iff {vs : List IVal} (hs : (vs.map (·.1.key)).Nodup) {v : List Nat} (hv : v.length = vs.length) :
    (∀ w ∈ vs, assign 0 (vs.map (·.1.key)) v w.1.key = w.2) ↔ v = vs.map (·.2) := by
  have e := assign_vals hs (v := v) (by simpa using hv)
  rw [List.map_map] at e
  conv_rhs => rw [← e]
  rw [List.map_inj_left]
  rfl

/-- **C101 (overlaps).** The inner product of two product states is 1 if every site has the same value in both, and 0
otherwise; the states need not have the same site indices. -/
theorem C101_overlap_partial [DecidableEq K] {lnk' : Nat → Nat × Verif.TagSet.TagSet} (hl : LinkD ext lnk) (hl' : LinkD ext lnk') {vs ws : List IVal}
    (hN : 2 ≤ vs.length) (hv : ∀ v ∈ vs, SiteD ext v) (hw : ∀ v ∈ ws, SiteD ext v)
    (hdim : ws.map (·.1.dim) = vs.map (·.1.dim))
    (hnd : (vs.map (·.1.key) ++ (List.range' 1 (vs.length - 1)).map (linkKey lnk)).Nodup)
    (hnd' : (ws.map (·.1.key) ++ (List.range' 1 (ws.length - 1)).map (linkKey lnk')).Nodup)
    (hdis : ∀ k ∈ ws.map (·.1.key), k ∉ (List.range' 1 (vs.length - 1)).map (linkKey lnk)) (conj : K →+* K) {newid : Key → Nat}
    (hf : Fresh ext newid ((List.range' 1 (vs.length - 1)).map (linkKey lnk))
      (ws.map (·.1.key) ++ (List.range' 1 (ws.length - 1)).map (linkKey lnk')))
    {d fuel : Nat} (hd : 1 ≤ d) (hext : ∀ k, ext k ≤ d)
    (hmax : ((d ^ 3 : Nat) : Int) ≤ offMax) (hfuel : d ^ 3 < fuel) (junk fresh : Int → K) :
    ∃ psi phi : List (DTensor K), initD lnk vs = .ok psi ∧ initD lnk' ws = .ok phi ∧
      innerC fuel junk fresh conj newid psi phi = some (.ok (if vs.map (·.2) = ws.map (·.2) then 1 else 0)) := by
  have hlen : ws.length = vs.length := by simpa using congrArg List.length hdim
  obtain ⟨psi, a1, a2, a3⟩ := C101_dense_partial (K := K) hl hN hv hnd
  obtain ⟨phi, b1, b2, b3⟩ := C101_dense_partial (K := K) hl' (by omega) hw hnd'
  have ev : (vs.map (·.1.key)).map ext = vs.map (·.1.dim) := by
    rw [List.map_map, List.map_inj_left]; exact fun v h => (hv v h).dim.symm
  have ew : (ws.map (·.1.key)).map ext = ws.map (·.1.dim) := by
    rw [List.map_map, List.map_inj_left]; exact fun v h => (hw v h).dim.symm
  have hs := (List.nodup_append.1 hnd).1
  have hs' := (List.nodup_append.1 hnd').1
  refine ⟨psi, phi, a1, b1, ?_⟩
  rw [C56_inner a2 b2 (by rw [ev, ew, hdim]) hdis conj hf hd hext hmax hfuel junk fresh]
  refine congrArg (fun x => some (Res.ok x)) ?_
  rw [ew]
  have key : ∀ {us : List IVal}, (us.map (·.1.key)).Nodup → us.map (·.1.dim) = ws.map (·.1.dim) → ∀ v, Valid (ws.map (·.1.dim)) v →
      ∀ u ∈ us, assign 0 (us.map (·.1.key)) v u.1.key < u.1.dim := by
    intro us hus hd v hv u hu
    rw [← hd] at hv
    have hlv : v.length = us.length := by simpa using List.Forall₂.length_eq hv
    have e := assign_vals hus (v := v) (by simpa using hlv)
    rw [← e, List.map_map] at hv
    unfold Valid at hv
    rw [List.forall₂_map_right_iff, List.forall₂_map_left_iff, List.forall₂_same] at hv
    rw [List.map_map] at e
    exact hv u hu
  have hva : Valid (ws.map (·.1.dim)) (ws.map (·.2)) := by
    unfold Valid
    rw [List.forall₂_map_right_iff, List.forall₂_map_left_iff, List.forall₂_same]
    exact fun w h => (hw w h).val
  have hstep : ∀ v, Valid (ws.map (·.1.dim)) v →
      conj (amp ext psi ((List.range' 1 (vs.length - 1)).map (linkKey lnk)) (assign 0 (vs.map (·.1.key)) v)) *
        amp ext phi ((List.range' 1 (ws.length - 1)).map (linkKey lnk')) (assign 0 (ws.map (·.1.key)) v) =
      if vs.map (·.2) = ws.map (·.2) then (if v = ws.map (·.2) then 1 else 0) else 0 := by
    intro v h
    have hlv : v.length = ws.length := by simpa using List.Forall₂.length_eq h
    rw [a3 _ (key hs hdim.symm v h), b3 _ (key hs' rfl v h), if_congr (agree_iff hs (by omega)) rfl rfl, if_congr (agree_iff hs' hlv) rfl rfl]
    by_cases e1 : v = vs.map (·.2)
    · by_cases e2 : v = ws.map (·.2)
      · rw [if_pos e1, if_pos e2, if_pos (e1.symm.trans e2)]; simp
      · rw [if_neg e2]; simp
    · by_cases e2 : v = ws.map (·.2)
      · rw [if_neg e1, if_neg fun e : vs.map (·.2) = ws.map (·.2) => e1 (e2.trans e.symm)]; simp
      · rw [if_neg e2]; simp
  rw [sumVals_congr_valid hstep]
  split
  · exact sumVals_delta hva
  · exact sumVals_zero

end

/-- **C101 (`set`).** `InitState::set` refuses a site outside `1..N`; otherwise only the entry of that site changes. -/
theorem C101_set {s : List IVal} {i : Int} {v : IVal} :
    (i < 1 ∨ (s.length : Int) < i → initSet s i (.ok v) = .throw) ∧
    (1 ≤ i → i ≤ s.length → ∃ t, initSet s i (.ok v) = .ok t ∧ t.length = s.length ∧ t[i.toNat - 1]? = some v ∧
      ∀ n : Nat, (n : Int) + 1 ≠ i → t[n]? = s[n]?) := by
  constructor
  · intro h
    unfold initSet
    rw [if_pos (by omega)]
  · intro h1 h2
    refine ⟨s.set (i.toNat - 1) v, ?_, by simp, ?_, ?_⟩
    · unfold initSet
      rw [if_neg (by omega)]
      rfl
    · rw [List.getElem?_set_self (by omega)]
    · intro n hn
      rw [List.getElem?_set_ne (by omega)]

end Verif.MPS
