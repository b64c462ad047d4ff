import Verif.MPS.InnerBra

/-! # Inner products are the full sums -/

namespace Verif.MPS

open Verif.Tensor Verif.Index Verif.Index.IndexSet Verif.Net Finset

variable {K : Type*} [CommRing K] [DecidableEq K]

/-! ## What an inner product should be -/

/-- Sum over all lists of values below the given dimensions. -/
def sumVals : List Nat → (List Nat → K) → K
  | [], f => f []
  | d :: ds, f => ∑ v ∈ range d, sumVals ds fun vs => f (v :: vs)

/-- Give the names in a list the values in a list. -/
def assign (ρ : Key → Nat) : List Key → List Nat → Key → Nat
  | x :: xs, v :: vs => assign (Function.update ρ x v) xs vs
  | _, _ => ρ

/-- The component of a chain of tensors: the sum over the values of the links of the product of
the elements of the tensors. `σ` gives the values of the site indices. -/
def amp (ext : Key → Nat) (A : List (DTensor K)) (l : List Key) (σ : Key → Nat) : K :=
  sumOver ext l (fun τ => (A.map fun T => T.sem.val τ).prod) σ

theorem sumOver_vals (ext : Key → Nat) (F : (Key → Nat) → K) : ∀ (s : List Key) (ρ : Key → Nat),
    sumOver ext s F ρ = sumVals (s.map ext) fun v => F (assign ρ s v) := by
  intro s
  induction s with
  | nil => intro ρ; rfl
  | cons x s ih =>
    intro ρ
    simp only [sumOver, List.map_cons, sumVals]
    exact sum_congr rfl fun v _ => by rw [ih]; rfl

omit [DecidableEq K] in
theorem sumVals_congr {f g : List Nat → K} : ∀ {ds : List Nat}, (∀ v, v.length = ds.length → f v = g v) →
    sumVals ds f = sumVals ds g := by
  intro ds
  induction ds generalizing f g with
  | nil => intro h; exact h [] rfl
  | cons d ds ih =>
    intro h
    simp only [sumVals]
    exact sum_congr rfl fun v _ => ih fun vs hv => h _ (by simp [hv])

theorem assign_not_mem {ρ : Key → Nat} : ∀ {s : List Key} {v : List Nat} {k : Key}, k ∉ s → assign ρ s v k = ρ k := by
  intro s
  induction s generalizing ρ with
  | nil => intro v k _; simp [assign]
  | cons x s ih =>
    intro v k hk
    rcases v with _ | ⟨a, v⟩
    · simp [assign]
    · simp only [List.mem_cons, not_or] at hk
      simp only [assign]
      rw [ih hk.2, Function.update_of_ne hk.1]

theorem assign_getElem {ρ : Key → Nat} : ∀ {s : List Key} {v : List Nat}, s.Nodup → ∀ n (h : n < s.length) (h' : n < v.length),
    assign ρ s v s[n] = v[n] := by
  intro s
  induction s generalizing ρ with
  | nil => intro v _ n h; simp at h
  | cons x s ih =>
    intro v hnd n h h'
    rcases v with _ | ⟨a, v⟩
    · simp at h'
    rw [List.nodup_cons] at hnd
    simp only [assign]
    rcases n with _ | n
    · simp only [List.getElem_cons_zero]
      rw [assign_not_mem hnd.1, Function.update_self]
    · simp only [List.getElem_cons_succ]
      exact ih hnd.2 n (by simpa using h) (by simpa using h')

/-! ## The loops -/

theorem mulAll_append (fuel : Nat) (junk fresh : Int → K) : ∀ (a b : List (DTensor K)) (L : DTensor K),
    mulAll fuel junk fresh L (a ++ b) = Run.bind (mulAll fuel junk fresh L a) fun L' => mulAll fuel junk fresh L' b := by
  intro a
  induction a with
  | nil => intro b L; rfl
  | cons T a ih =>
    intro b L
    simp only [List.cons_append, mulAll]
    cases h : L.mulEq fuel junk fresh T with
    | none => rfl
    | some r => cases r <;> simp [Run.bind, ih]

theorem mulSites_flatten (fuel : Nat) (junk fresh : Int → K) : ∀ (cs : List (List (DTensor K))) (L : DTensor K),
    mulSites fuel junk fresh L cs = mulAll fuel junk fresh L cs.flatten := by
  intro cs
  induction cs with
  | nil => intro L; rfl
  | cons c cs ih =>
    intro L
    simp only [mulSites, List.flatten_cons, mulAll_append, ih]

/-- Products from left to right as a tree. -/
def chainTree {T : Type*} (t : PTree T) : List T → PTree T
  | [] => t
  | x :: xs => chainTree (.node t (.leaf x)) xs

theorem chainTree_leaves {T : Type*} : ∀ (xs : List T) (t : PTree T), (chainTree t xs).leaves = t.leaves ++ xs := by
  intro xs
  induction xs with
  | nil => intro t; simp [chainTree]
  | cons x xs ih => intro t; simp [chainTree, ih, PTree.leaves]

theorem chainTree_map {S T : Type*} (f : S → T) : ∀ (xs : List S) (t : PTree S),
    (chainTree t xs).map f = chainTree (t.map f) (xs.map f) := by
  intro xs
  induction xs with
  | nil => intro t; rfl
  | cons x xs ih => intro t; simp [chainTree, ih, PTree.map]

theorem mulAll_evalD (fuel : Nat) (junk fresh : Int → K) : ∀ (Ts : List (DTensor K)) (t : PTree (DTensor K)),
    Run.bind (t.evalD fuel junk fresh) (fun L => mulAll fuel junk fresh L Ts) = (chainTree t Ts).evalD fuel junk fresh := by
  intro Ts
  induction Ts with
  | nil =>
    intro t
    simp only [chainTree, mulAll]
    cases h : t.evalD fuel junk fresh with
    | none => rfl
    | some r => cases r <;> rfl
  | cons T Ts ih =>
    intro t
    simp only [chainTree, mulAll]
    rw [← ih]
    simp only [PTree.evalD]
    cases h : t.evalD fuel junk fresh with
    | none => rfl
    | some r => cases r <;> rfl

/-- A chain of products whose indices all occur twice gives the full sum. -/
theorem sandwich_spec {ext : Key → Nat} {fuel : Nat} (junk fresh : Int → K) {T : DTensor K} {c : List (DTensor K)}
    {cs : List (List (DTensor K))} (hok : ∀ U ∈ T :: (c ++ cs.flatten), U.OK ext)
    (hs : SizesOK ext fuel (chainTree (.leaf T.sem) ((c ++ cs.flatten).map DTensor.sem)))
    (hocc : ∀ k, occ k ((T :: (c ++ cs.flatten)).map DTensor.sem) = 0 ∨ occ k ((T :: (c ++ cs.flatten)).map DTensor.sem) = 2)
    {D : List Key} (hD : D.Nodup) (hm : ∀ k, k ∈ D ↔ occ k ((T :: (c ++ cs.flatten)).map DTensor.sem) = 2) (σ : Key → Nat) :
    sandwich fuel junk fresh ((T :: c) :: cs) =
      some (.ok (sumOver ext D (fun τ => ((T :: (c ++ cs.flatten)).map fun U => U.sem.val τ).prod) σ)) := by
  have hl : (chainTree (.leaf T) (c ++ cs.flatten)).leaves = T :: (c ++ cs.flatten) := by
    rw [chainTree_leaves]; rfl
  obtain ⟨N, e, okN, hk, hv⟩ := C61_itensors (ext := ext) (fuel := fuel) junk fresh (chainTree (.leaf T) (c ++ cs.flatten))
    (by rw [hl]; exact hok) (by rw [chainTree_map]; exact hs)
    (by intro k; rw [hl]; rcases hocc k with h | h <;> omega)
  rw [hl] at hk hv
  have hN : N.is = [] := by
    rcases hi : N.is with _ | ⟨i, is⟩
    · rfl
    · have := (hk i.key).1 (by rw [hi]; simp [keys])
      rcases hocc i.key with h | h <;> omega
  have hval := hv D hD hm σ (by simp [hN, keys])
  have e2 : mulAll fuel junk fresh T (c ++ cs.flatten) = some (.ok N) := by
    rw [← e, ← mulAll_evalD]; rfl
  rw [mulAll_append] at e2
  have e3 : sandwich fuel junk fresh ((T :: c) :: cs) = Run.bind (Run.bind (mulAll fuel junk fresh T c) fun L' =>
      mulAll fuel junk fresh L' cs.flatten) fun L' => some (eltC L') := by
    simp only [sandwich, mulSites_flatten]
    cases h : mulAll fuel junk fresh T c with
    | none => rfl
    | some r => cases r <;> rfl
  rw [e3, e2]
  simp only [Run.bind, eltC, hN, List.length_nil]
  simp only [hN, List.map_nil, rank_nil] at hval
  simp only [ne_eq, not_true_eq_false, if_false]
  congr 2

/-! ## The bra -/

/-- The renamed bra. `ren` takes the site indices of `psi` to those of `phi` and gives new links. -/
theorem bra_spec {ext : Key → Nat} {psi phi : List (DTensor K)} {s l s' l' : List Key} (hpsi : IsMPS ext psi s l)
    (hphi : IsMPS ext phi s' l') (conj : K →+* K) {newid : Key → Nat} {ren : Key → Key} (hs : s.map ren = s')
    (hl : ∀ k ∈ l, ren k = simKey newid k) (hd : s'.map ext = s.map ext) (hdis : ∀ k ∈ s', k ∉ l)
    (h0 : ∀ k ∈ l, newid k ≠ 0) (hnd : (l.map ren).Nodup) :
    ∃ p, bra conj newid psi phi = .ok p ∧ List.Forall₂ (Renamed ren conj) psi p := by
  obtain ⟨sx, e1, k1, m1⟩ := siteInds_mps hphi
  have hsn : s'.Nodup := by
    have := hphi.nodup; rw [flatten_single] at this; exact (List.nodup_append.1 this).1
  have hndp := hpsi.nodup
  rw [flatten_single] at hndp
  have hsl : ∀ k ∈ s, k ∉ l := fun k hk hk' => (List.nodup_append.1 hndp).2.2 k hk k hk' rfl
  have hln : l.Nodup := (List.nodup_append.1 hndp).2.1
  -- conjugation
  have hconj : List.Forall₂ (Renamed id conj) psi (psi.map (dagD conj)) := by
    rw [List.forall₂_map_right_iff, List.forall₂_same]
    intro T hT
    exact ⟨id, by simp [dagD], fun _ => rfl, fun i hi => ⟨rfl, rfl, hpsi.plain T hT i hi⟩⟩
  have hpd : IsMPS ext (psi.map (dagD conj)) s l := by
    have hid : (s.map fun k => [k]).map (·.map id) = s.map fun k => [k] := by simp [Function.comp_def]
    have := hpsi.renamed hconj (by rw [hid, List.map_id]; exact hpsi.nodup) (by simp)
    rwa [hid, List.map_id] at this
  -- sites
  let ren1 : Key → Key := fun k => if k ∈ s then ren k else k
  have hren1 : s.map ren1 = s' := by
    rw [← hs]; exact List.map_congr_left fun k hk => by simp [ren1, hk]
  have hren1l : ∀ k ∈ l, ren1 k = k := fun k hk => by
    simp only [ren1]; rw [if_neg fun h => hsl k h hk]
  obtain ⟨p1, e2, r1⟩ := replaceSiteInds_spec hpd (sites := sx) (ren := ren1) (by rw [k1, hren1])
    (by
      rw [← hd, ← k1]
      simp only [keys, List.map_map]
      apply List.map_congr_left
      intro i hi
      obtain ⟨T, hT, hiT⟩ := m1 i hi
      exact (hphi.ok T hT).dims i hiT)
    (by
      intro i hi
      obtain ⟨T, hT, hiT⟩ := m1 i hi
      exact hphi.plain T hT i hiT) hren1l (by rw [k1]; exact hsn)
  have hmapl : l.map ren1 = l := by
    conv_rhs => rw [← List.map_id l]
    exact List.map_congr_left hren1l
  have hmaps : (s.map fun k => [k]).map (·.map ren1) = s'.map fun k => [k] := by
    rw [← hren1]; simp
  have hp1 : IsMPS ext p1 s' l := by
    have := hpd.renamed r1 (by
        rw [hmaps, hmapl, flatten_single, List.nodup_append]
        exact ⟨hsn, hln, fun a ha b hb e => hdis a ha (e ▸ hb)⟩)
      (by
        rw [flatten_single]
        intro k hk
        rcases List.mem_append.1 hk with h | h
        · obtain ⟨n, hn, rfl⟩ := List.mem_iff_getElem.1 h
          have h1 : ren1 s[n] = s'[n]'(by rw [← hren1]; simpa using hn) := by
            simp only [← hren1, List.getElem_map]
          have h2 := congrArg (fun y => y[n]?) hd
          have hn' : n < s'.length := by rw [← hren1]; simpa using hn
          simp [hn, hn'] at h2
          rw [h1, h2]
        · rw [hren1l k h])
    rwa [hmaps, hmapl] at this
  -- links
  let ren2 : Key → Key := fun k => if k ∈ l then simKey newid k else k
  have hmap2 : l.map ren2 = l.map ren := List.map_congr_left fun k hk => by simp [ren2, hk, hl k hk]
  obtain ⟨p2, e3, r2⟩ := freshLinks_spec hp1 (newid := newid) (ren := ren2)
    (by
      rw [flatten_single]
      intro k hk
      simp only [ren2]; rw [if_neg (hdis k hk)])
    (fun k hk => by simp [ren2, hk]) h0 (by rw [hmap2]; exact hnd)
  refine ⟨p2, ?_, ?_⟩
  · simp only [bra, e1, e2, Res.bind, e3]
  · have h12 := forall₂_trans (P := Renamed (fun k => ren1 k) conj) (fun a b c h h' => (h.trans h').congr fun _ _ => rfl) hconj r1
    have h13 := forall₂_trans (P := Renamed (fun k => ren2 (ren1 k)) conj) (fun a b c h h' => (h.trans h').congr fun _ _ => rfl) h12 r2
    refine forall₂_imp_mem h13 fun T hT U hTU => hTU.congr fun i hi => ?_
    have hk := hpsi.mem_names hT hi
    rw [flatten_single] at hk
    rcases List.mem_append.1 hk with h | h
    · have h1 : ren i.key ∈ s' := by rw [← hs]; exact List.mem_map_of_mem h
      simp only [ren1, if_pos h, ren2, if_neg (hdis _ h1)]
    · simp only [hren1l _ h, ren2, if_pos h, hl _ h]

omit [CommRing K] [DecidableEq K] in
/-- The elements of a renamed tensor. -/
theorem Renamed.val {ren : Key → Key} {c : K → K} {T U : DTensor K} (h : Renamed ren c T U) (τ σ : Key → Nat)
    (hσ : ∀ i ∈ T.is, τ (ren i.key) = σ i.key) : U.sem.val τ = c (T.sem.val σ) := by
  obtain ⟨f, f1, f2, f3⟩ := h
  simp only [DTensor.sem, f1, f2, List.map_map]
  congr 4
  · exact List.map_congr_left fun i hi => (f3 i hi).2.1
  · exact List.map_congr_left fun i hi => by simp only [Function.comp]; rw [(f3 i hi).1, hσ i hi]

omit [DecidableEq K] in
theorem map_sumOver (c : K →+* K) {X : Type*} [DecidableEq X] (ext : X → Nat) (F : (X → Nat) → K) : ∀ (cs : List X)
    (ρ : X → Nat), sumOver ext cs (fun τ => c (F τ)) ρ = c (sumOver ext cs F ρ) := by
  intro cs
  induction cs with
  | nil => intro ρ; rfl
  | cons x cs ih => intro ρ; simp only [sumOver, map_sum, ih]

/-- The component of a renamed chain. -/
theorem amp_renamed {ext : Key → Nat} {A B : List (DTensor K)} {S : List (List Key)} {l : List Key} {ren : Key → Key}
    {conj : K →+* K} (h : IsChain ext A S l) (hr : List.Forall₂ (Renamed ren conj) A B)
    (hinj : ((S.flatten ++ l).map ren).Nodup) (he : ∀ k ∈ S.flatten ++ l, ext (ren k) = ext k) (τ σ : Key → Nat)
    (hσ : ∀ k ∈ S.flatten ++ l, τ (ren k) = σ k) : amp ext B (l.map ren) τ = conj (amp ext A l σ) := by
  unfold amp
  rw [← map_sumOver]
  refine sumOver_map (S := fun k => k ∈ S.flatten ++ l) (fun k k' hk hk' e => List.inj_on_of_nodup_map hinj hk hk' e) he ?_ l τ σ
    (fun k hk => List.mem_append_right _ hk) hσ
  intro τ' σ' h'
  rw [map_list_prod]
  congr 1
  have hmem : ∀ T ∈ A, ∀ i ∈ T.is, τ' (ren i.key) = σ' i.key := fun T hT i hi => h' _ (h.mem_names hT hi)
  clear h hinj he hσ h'
  induction hr with
  | nil => rfl
  | cons h1 _ ih =>
    simp only [List.map_cons]
    rw [h1.val τ' σ' (hmem _ (by simp)), ih fun T hT => hmem T (by simp [hT])]

end Verif.MPS
