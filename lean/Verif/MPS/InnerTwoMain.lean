import Verif.MPS.InnerTwo
import Verif.MPS.InnerEx

/-! # Inner products of two operators applied to states: `inner(MPO,MPS,MPO,MPS)` -/

namespace Verif.MPS

open Verif.Tensor Verif.Index Verif.Index.IndexSet Verif.Net Finset

variable {K : Type*} [CommRing K] [DecidableEq K]

/-! ## The loops -/

/-- A chain of products without indices left gives the value of the product. -/
theorem sandwich_eval {ext : Key → Nat} {fuel : Nat} (junk fresh : Int → K) {T : DTensor K} {c : List (DTensor K)}
    {cs : List (List (DTensor K))} (hok : ∀ U ∈ T :: (c ++ cs.flatten), U.OK ext)
    (hs : SizesOK ext fuel (chainTree (.leaf T.sem) ((c ++ cs.flatten).map DTensor.sem)))
    (hinds : ((chainTree (.leaf T.sem) ((c ++ cs.flatten).map DTensor.sem)).eval ext).inds = []) (σ : Key → Nat) :
    sandwich fuel junk fresh ((T :: c) :: cs) =
      some (.ok (((chainTree (.leaf T.sem) ((c ++ cs.flatten).map DTensor.sem)).eval ext).val σ)) := by
  have hl : (chainTree (.leaf T) (c ++ cs.flatten)).leaves = T :: (c ++ cs.flatten) := by
    rw [chainTree_leaves]; rfl
  obtain ⟨N, e, okN, h1, h2⟩ := C60_network (ext := ext) (fuel := fuel) junk fresh (chainTree (.leaf T) (c ++ cs.flatten))
    (by rw [hl]; exact hok) (by rw [chainTree_map]; exact hs)
  rw [chainTree_map] at h1 h2
  rw [show PTree.map DTensor.sem (.leaf T) = .leaf T.sem from rfl] at h1 h2
  rw [hinds] at h1
  have hN : N.is = [] := by
    have : keys N.is = [] := h1
    simpa [keys] using this
  have hval := h2 σ (by rw [h1]; simp)
  have e2 : mulAll fuel junk fresh T (c ++ cs.flatten) = some (.ok N) := by
    rw [← e, ← mulAll_evalD]; rfl
  rw [mulAll_append] at e2
  have e3 : sandwich fuel junk fresh ((T :: c) :: cs) = Run.bind (Run.bind (mulAll fuel junk fresh T c) fun L' =>
      mulAll fuel junk fresh L' cs.flatten) fun L' => some (eltC L') := by
    simp only [sandwich, mulSites_flatten]
    cases h : mulAll fuel junk fresh T c with
    | none => rfl
    | some r => cases r <;> rfl
  rw [e3, e2, ← hval]
  simp only [Run.bind, eltC, hN, List.length_nil, DTensor.sem, List.map_nil, rank_nil]
  simp

/-- The number 1. -/
def unit : Ten Key K := ⟨[], fun _ => 1⟩

omit [DecidableEq K] in
theorem unit_ok : (unit : Ten Key K).OK := ⟨List.nodup_nil, fun _ _ _ => rfl⟩

omit [DecidableEq K] in
theorem unit_mul (ext : Key → Nat) (P : Ten Key K) : mul ext unit P = P := by
  simp [Net.mul, unit, sumOver]

omit [DecidableEq K] in
theorem sizes_start {ext : Key → Nat} {fuel : Nat} : ∀ (c : List (Ten Key K)) {t t' : PTree (Ten Key K)},
    SizesOK ext fuel (chainTree t c) → t'.eval ext = t.eval ext → SizesOK ext fuel t' → SizesOK ext fuel (chainTree t' c) := by
  intro c
  induction c with
  | nil => intro t t' _ _ h; exact h
  | cons P c ih =>
    intro t t' h e h'
    simp only [chainTree] at h ⊢
    have hn : ∀ (c : List (Ten Key K)) (t : PTree (Ten Key K)), SizesOK ext fuel (chainTree t c) → SizesOK ext fuel t := by
      intro c
      induction c with
      | nil => intro t h; exact h
      | cons P c ih => intro t h; exact (ih _ h).1
    have h2 := hn c _ h
    refine ih h (by simp only [PTree.eval, e]) ⟨h', h2.2.1, ?_⟩
    rw [e]; exact h2.2.2

omit [DecidableEq K] in
theorem eval_start {ext : Key → Nat} : ∀ (c : List (Ten Key K)) {t t' : PTree (Ten Key K)},
    t'.eval ext = t.eval ext → (chainTree t' c).eval ext = (chainTree t c).eval ext := by
  intro c
  induction c with
  | nil => intro t t' e; exact e
  | cons P c ih => intro t t' e; exact ih (by simp only [PTree.eval, e])

/-! ## Numbers telling the indices apart -/

theorem cls_of {f : Key → Nat} {o : Nat} : ∀ {ks : List Key} {c : Nat}, ks.Nodup → (∀ k ∈ ks, f k = 10 * (c + ks.idxOf k) + o) → Cls f o c ks := by
  intro ks
  induction ks with
  | nil => intro c _ _; trivial
  | cons k ks ih =>
    intro c hnd h
    rw [List.nodup_cons] at hnd
    refine ⟨by simpa using h k (by simp), ih hnd.2 fun k' hk' => ?_⟩
    rw [h k' (by simp [hk']), List.idxOf_cons_ne _ (fun e : k = k' => hnd.1 (e ▸ hk'))]
    omega

theorem exists_cls {u t l a b m : List Key} (h : (u ++ (t ++ (l ++ (a ++ (b ++ m))))).Nodup) :
    ∃ f : Key → Nat, Cls f 0 1 u ∧ Cls f 1 1 t ∧ Cls f 2 1 l ∧ Cls f 3 1 a ∧ Cls f 4 1 b ∧ Cls f 5 1 m := by
  simp only [List.nodup_append, List.mem_append] at h
  obtain ⟨nu, ⟨nt, ⟨nl, ⟨na, ⟨nb, nm, d5⟩, d4⟩, d3⟩, d2⟩, d1⟩ := h
  refine ⟨fun k => if k ∈ u then 10 * (1 + u.idxOf k) + 0 else if k ∈ t then 10 * (1 + t.idxOf k) + 1 else
    if k ∈ l then 10 * (1 + l.idxOf k) + 2 else if k ∈ a then 10 * (1 + a.idxOf k) + 3 else if k ∈ b then 10 * (1 + b.idxOf k) + 4 else
    10 * (1 + m.idxOf k) + 5, cls_of nu fun k hk => ?_, cls_of nt fun k hk => ?_, cls_of nl fun k hk => ?_, cls_of na fun k hk => ?_,
    cls_of nb fun k hk => ?_, cls_of nm fun k hk => ?_⟩
  · rw [if_pos hk]
  · rw [if_neg fun h => d1 k h k (by simp [hk]) rfl, if_pos hk]
  · rw [if_neg fun h => d1 k h k (by simp [hk]) rfl, if_neg fun h => d2 k h k (by simp [hk]) rfl, if_pos hk]
  · rw [if_neg fun h => d1 k h k (by simp [hk]) rfl, if_neg fun h => d2 k h k (by simp [hk]) rfl,
      if_neg fun h => d3 k h k (by simp [hk]) rfl, if_pos hk]
  · rw [if_neg fun h => d1 k h k (by simp [hk]) rfl, if_neg fun h => d2 k h k (by simp [hk]) rfl,
      if_neg fun h => d3 k h k (by simp [hk]) rfl, if_neg fun h => d4 k h k (by simp [hk]) rfl, if_pos hk]
  · rw [if_neg fun h => d1 k h k (by simp [hk]) rfl, if_neg fun h => d2 k h k (by simp [hk]) rfl,
      if_neg fun h => d3 k h k (by simp [hk]) rfl, if_neg fun h => d4 k h k (by simp [hk]) rfl, if_neg fun h => d5 k h k hk rfl]

/-! ## An operator and a state -/

omit [CommRing K] [DecidableEq K] in
theorem pairTree_leaves {T : Type*} : ∀ (P Q : List T) (Z : PTree T), (pairTree Z P Q).leaves = Z.leaves ++ interleave P Q := by
  intro P
  induction P with
  | nil => intro Q Z; simp [pairTree, interleave]
  | cons p P ih =>
    intro Q Z
    rcases Q with _ | ⟨q, Q⟩
    · simp [pairTree, interleave]
    · simp [pairTree, interleave, ih, PTree.leaves]

/-- The components of `B y`: the sum over the input sites of the matrix elements of `B` times the components of `y`. -/
def applied (ext : Key → Nat) (B y : List (DTensor K)) (u a l : List Key) (σ : Key → Nat) : K :=
  sumOver ext u (fun τ => amp ext B a τ * amp ext y l τ) σ

/-- Any product of the tensors of an operator and a state is the operator applied to the state. -/
theorem pair_spec {ext : Key → Nat} {B y : List (DTensor K)} {t u a l : List Key} (hB : IsMPO ext B t u a) (hy : IsMPS ext y u l)
    (hlen : t.length = u.length) (hnd : (u ++ (t ++ (l ++ a))).Nodup) {w : PTree (Ten Key K)}
    (hw : w.leaves.Perm (unit :: (y.map DTensor.sem ++ B.map DTensor.sem))) :
    (w.eval ext).OK ∧ (∀ k, k ∈ (w.eval ext).inds ↔ k ∈ t) ∧ ∀ σ, (w.eval ext).val σ = applied ext B y u a l σ := by
  have hocc : ∀ k, occ k w.leaves = ((if k ∈ u then 1 else 0) + (if k ∈ l then 2 else 0)) + ((if k ∈ t ∨ k ∈ u then 1 else 0) +
      (if k ∈ a then 2 else 0)) := by
    intro k
    have h1 := hy.occ k
    have h2 := hB.occ k
    rw [flatten_single] at h1
    simp only [(pairs_perm hlen).mem_iff, List.mem_append] at h2
    rw [← h1, ← h2, ← occ_append]
    refine (hw.countP_eq _).trans ?_
    rw [List.countP_cons]
    simp [unit, occ]
  simp only [List.nodup_append, List.mem_append] at hnd
  obtain ⟨nu, ⟨nt, ⟨nl, na, d3⟩, d2⟩, d1⟩ := hnd
  have x1 : ∀ k ∈ u, k ∉ t ∧ k ∉ l ∧ k ∉ a := fun k hk => ⟨fun h => d1 k hk k (by simp [h]) rfl, fun h => d1 k hk k (by simp [h]) rfl,
    fun h => d1 k hk k (by simp [h]) rfl⟩
  have x2 : ∀ k ∈ t, k ∉ l ∧ k ∉ a := fun k hk => ⟨fun h => d2 k hk k (by simp [h]) rfl, fun h => d2 k hk k (by simp [h]) rfl⟩
  have x3 : ∀ k ∈ l, k ∉ a := fun k hk h => d3 k hk k h rfl
  have hcase : ∀ k, occ k w.leaves ≤ 2 ∧ (occ k w.leaves = 1 ↔ k ∈ t) ∧ (occ k w.leaves = 2 ↔ k ∈ u ++ (l ++ a)) := by
    intro k
    rw [hocc k]
    simp only [List.mem_append]
    by_cases hu : k ∈ u
    · obtain ⟨h1, h2, h3⟩ := x1 k hu
      simp [hu, h1, h2, h3]
    by_cases ht : k ∈ t
    · obtain ⟨h2, h3⟩ := x2 k ht
      simp [hu, ht, h2, h3]
    by_cases hl : k ∈ l
    · simp [hu, ht, hl, x3 k hl]
    by_cases ha : k ∈ a <;> simp [hu, ht, hl, ha]
  have hleaf : ∀ T ∈ w.leaves, T.OK := by
    intro T hT
    rcases List.mem_cons.1 (hw.mem_iff.1 hT) with rfl | h
    · exact unit_ok
    · rcases List.mem_append.1 h with h | h <;> obtain ⟨U, hU, rfl⟩ := List.mem_map.1 h
      · exact DTensor.sem_ok (hy.ok U hU)
      · exact DTensor.sem_ok (hB.ok U hU)
  obtain ⟨o1, o2, o3⟩ := C61_network ext w hleaf fun k => (hcase k).1
  refine ⟨o1, fun k => (o2 k).trans (hcase k).2.1, fun σ => ?_⟩
  rw [o3 (u ++ (l ++ a)) (by
    simp only [List.nodup_append, List.mem_append]
    refine ⟨nu, ⟨nl, na, d3⟩, fun k hk k' hk' => d1 k hk k' (Or.inr hk')⟩) (fun k => ((hcase k).2.2).symm) σ, sumOver_append]
  unfold applied
  congr 1
  funext τ
  have hprod : prodVal w.leaves = fun τ => (y.map fun T => T.sem.val τ).prod * (B.map fun T => T.sem.val τ).prod := by
    funext τ
    unfold prodVal
    rw [(hw.map _).prod_eq]
    simp [unit, Function.comp_def]
  rw [hprod, sumOver_append]
  have e1 : sumOver ext a (fun τ => (y.map fun T => T.sem.val τ).prod * (B.map fun T => T.sem.val τ).prod) =
      fun τ => (y.map fun T => T.sem.val τ).prod * amp ext B a τ := by
    funext τ
    refine sumOver_mul_left ext a τ (hy.prod_dep.mono fun k hk hk' => ?_)
    rw [flatten_single] at hk
    rcases List.mem_append.1 hk with h | h
    · exact (x1 k h).2.2 hk'
    · exact x3 k h hk'
  rw [e1, mul_comm]
  refine sumOver_mul_right ext l τ (hB.amp_dep.mono fun k hk hk' => ?_)
  rw [(pairs_perm hlen).mem_iff, List.mem_append] at hk
  rcases hk with h | h
  · exact (x2 k h).1 hk'
  · exact (x1 k h).2.1 hk'

theorem zip4_flatten {T : Type*} : ∀ {A B C D : List T}, ((A.zip (B.zip (C.zip D))).map fun q => [q.1, q.2.1, q.2.2.1, q.2.2.2]).flatten =
    interleave4 A B C D := by
  intro A
  induction A with
  | nil => intro B C D; rfl
  | cons a A ih =>
    intro B C D
    rcases B with _ | ⟨b, B⟩
    · rfl
    rcases C with _ | ⟨c, C⟩
    · rfl
    rcases D with _ | ⟨d, D⟩
    · rfl
    simp [interleave4, ih]

theorem interleave4_map {S T : Type*} (f : S → T) : ∀ {A B C D : List S}, (interleave4 A B C D).map f =
    interleave4 (A.map f) (B.map f) (C.map f) (D.map f) := by
  intro A
  induction A with
  | nil => intro B C D; rfl
  | cons a A ih =>
    intro B C D
    rcases B with _ | ⟨b, B⟩
    · rfl
    rcases C with _ | ⟨c, C⟩
    · rfl
    rcases D with _ | ⟨d, D⟩
    · rfl
    simp [interleave4, ih]

theorem interleave4_mem {T : Type*} : ∀ {A B C D : List T} {x : T}, x ∈ interleave4 A B C D → x ∈ A ∨ x ∈ B ∨ x ∈ C ∨ x ∈ D := by
  intro A
  induction A with
  | nil => intro B C D x h; simp [interleave4] at h
  | cons a A ih =>
    intro B C D x h
    rcases B with _ | ⟨b, B⟩
    · simp [interleave4] at h
    rcases C with _ | ⟨c, C⟩
    · simp [interleave4] at h
    rcases D with _ | ⟨d, D⟩
    · simp [interleave4] at h
    simp only [interleave4, List.mem_cons] at h ⊢
    rcases h with h | h | h | h | h
    · exact Or.inl (Or.inl h)
    · exact Or.inr (Or.inl (Or.inl h))
    · exact Or.inr (Or.inr (Or.inl (Or.inl h)))
    · exact Or.inr (Or.inr (Or.inr (Or.inl h)))
    · rcases ih h with h | h | h | h
      · exact Or.inl (Or.inr h)
      · exact Or.inr (Or.inl (Or.inr h))
      · exact Or.inr (Or.inr (Or.inl (Or.inr h)))
      · exact Or.inr (Or.inr (Or.inr (Or.inr h)))

/-- Four layers: the sum over the sites shared by the two operators of the products of the components of the two
operators applied to their states. -/
theorem four_spec {ext : Key → Nat} {d fuel : Nat} (hd : 1 ≤ d) (hext : ∀ k, ext k ≤ d) (hmax : ((d ^ 5 : Nat) : Int) ≤ offMax)
    (hfuel : d ^ 5 < fuel) (junk fresh : Int → K) {y B C x : List (DTensor K)} {t u s l a b m : List Key} (hy : IsMPS ext y u l)
    (hB : IsMPO ext B t u a) (hC : IsMPO ext C t s b) (hx : IsMPS ext x s m) (hlt : t.length = u.length) (hls : s.length = u.length)
    (hf : (u ++ (t ++ (l ++ (a ++ (b ++ m))))).Nodup) (hg : (s ++ (t ++ (l ++ (a ++ (b ++ m))))).Nodup) (σ : Key → Nat) :
    sandwich fuel junk fresh ((y.zip (B.zip (C.zip x))).map fun q => [q.1, q.2.1, q.2.2.1, q.2.2.2]) =
      some (.ok (sumOver ext t (fun τ => applied ext B y u a l τ * applied ext C x s b m τ) σ)) := by
  obtain ⟨f, f0, f1, f2, f3, f4, f5⟩ := exists_cls hf
  obtain ⟨g, g0, g1, g2, g3, g4, g5⟩ := exists_cls hg
  have okS : ∀ {A : List (DTensor K)} {S : List (List Key)} {l : List Key}, IsChain ext A S l → ∀ T ∈ A.map DTensor.sem, T.OK := by
    intro A S l h T hT
    obtain ⟨U, hU, rfl⟩ := List.mem_map.1 hT
    exact DTensor.sem_ok (h.ok U hU)
  have hunit : SizesOK ext fuel (.leaf (unit : Ten Key K)) := by
    have h1 : 1 ≤ d ^ 5 := Nat.one_le_pow _ _ hd
    simp only [SizesOK, unit, List.map_nil, List.prod_nil]
    refine ⟨le_trans ?_ hmax, by omega⟩
    exact_mod_cast h1
  have hsz := sizes4 hd hext hmax hfuel (f := f) (g := g) u t s _ _ _ _ none none none none l a b m 1 (.leaf unit) hlt hls hy.sem_shape
    hB.sem_shape hC.sem_shape hx.sem_shape (okS hy) (okS hB) (okS hC) (okS hx) unit_ok (by simp [PTree.eval, unit]) (by simp) (by simp)
    (by simp) (by simp) (by simp) (by simp) f0 f1 f2 f3 f4 f5 g0 g1 g2 g3 g4 g5 hunit
  have hlay := layers (ext := ext) (f := f) (g := g) u t s _ _ _ _ none none none none l a b m 1 (fun _ => False) (.leaf unit) (.leaf unit)
    (.leaf unit) hlt hls hy.sem_shape
    hB.sem_shape hC.sem_shape hx.sem_shape (okS hy) (okS hB) (okS hC) (okS hx) unit_ok unit_ok unit_ok
    (by simp only [PTree.eval]; rw [unit_mul]; exact Eqv.refl _) (by simp [PTree.eval, unit]) (by simp [PTree.eval, unit]) (by simp) (by simp) (by simp) (by simp)
    (by simp) (by simp) (by simp) (by simp) f0 f1 f2 f3 f4 f5 g0 g1 g2 g3 g4 g5
  have hly : y.length = u.length := by simpa using hy.shape.length
  have hlx : x.length = s.length := by simpa using hx.shape.length
  have hlB : B.length = u.length := by
    have := hB.shape.length
    simp only [pairs, List.length_map, List.length_zip] at this
    omega
  have hlC : C.length = s.length := by
    have := hC.shape.length
    simp only [pairs, List.length_map, List.length_zip] at this
    omega
  obtain ⟨z1, z2, z3⟩ := pair_spec hB hy hlt (by
    refine hf.sublist ?_
    refine List.Sublist.append (List.Sublist.refl _) (List.Sublist.append (List.Sublist.refl _) (List.Sublist.append (List.Sublist.refl _)
      (List.sublist_append_left _ _)))) (w := pairTree (.leaf unit) (y.map DTensor.sem) (B.map DTensor.sem)) (by
      rw [pairTree_leaves]
      exact List.Perm.cons _ (interleave_perm (by simp only [List.length_map]; omega)))
  obtain ⟨w1, w2, w3⟩ := pair_spec hC hx (by omega) (by
    have hp : (s ++ (t ++ (m ++ b))).Perm (s ++ (t ++ (b ++ m))) := (List.perm_append_comm.append_left t).append_left s
    rw [hp.nodup_iff]
    refine hg.sublist ?_
    refine List.Sublist.append (List.Sublist.refl _) (List.Sublist.append (List.Sublist.refl _) ?_)
    exact (List.sublist_append_right _ _).trans (List.sublist_append_right _ _))
    (w := pairTree (.leaf unit) (C.map DTensor.sem) (x.map DTensor.sem)) (by
      rw [pairTree_leaves]
      exact List.Perm.cons _ ((interleave_perm (by simp only [List.length_map]; omega)).trans List.perm_append_comm))
  rcases y with _ | ⟨P, Y⟩
  · exact absurd hy.shape (by simp [Shape])
  rcases B with _ | ⟨Q, B⟩
  · exact absurd hB.shape (by simp [Shape])
  rcases C with _ | ⟨R, C⟩
  · exact absurd hC.shape (by simp [Shape])
  rcases x with _ | ⟨V, X⟩
  · exact absurd hx.shape (by simp [Shape])
  have hflat : [Q, R, V] ++ ((Y.zip (B.zip (C.zip X))).map fun q => [q.1, q.2.1, q.2.2.1, q.2.2.2]).flatten =
      Q :: R :: V :: interleave4 Y B C X := by rw [zip4_flatten]; rfl
  have hmap : (Q :: R :: V :: interleave4 Y B C X).map DTensor.sem = Q.sem :: R.sem :: V.sem :: interleave4 (Y.map DTensor.sem)
      (B.map DTensor.sem) (C.map DTensor.sem) (X.map DTensor.sem) := by
    simp only [List.map_cons, interleave4_map]
  simp only [List.map_cons, interleave4] at hsz hlay
  rw [chainTree] at hsz hlay
  have hst : (PTree.leaf P.sem).eval ext = (PTree.node (.leaf unit) (.leaf P.sem)).eval ext := by
    simp only [PTree.eval, unit_mul]
  have hsz' := sizes_start _ hsz hst (by
    have : ∀ (c : List (Ten Key K)) (t : PTree (Ten Key K)), SizesOK ext fuel (chainTree t c) → SizesOK ext fuel t := by
      intro c
      induction c with
      | nil => intro t h; exact h
      | cons P c ih => intro t h; exact (ih _ h).1
    exact (this _ _ hsz).2.1)
  rw [← eval_start _ hst] at hlay
  have hfi : ∀ k, k ∈ (mul ext ((pairTree (.leaf unit) ((P :: Y).map DTensor.sem) ((Q :: B).map DTensor.sem)).eval ext)
      ((pairTree (.leaf unit) ((R :: C).map DTensor.sem) ((V :: X).map DTensor.sem)).eval ext)).inds → False := by
    intro k hk
    rw [Net.mul_mem, z2, w2] at hk
    tauto
  simp only [List.zip_cons_cons, List.map_cons]
  rw [sandwich_eval (ext := ext) junk fresh ?_ ?_ ?_ σ]
  · rw [hflat, hmap, hlay.2]
    congr 2
    simp only [Net.mul]
    have e : (fun τ => ((pairTree (.leaf unit) ((P :: Y).map DTensor.sem) ((Q :: B).map DTensor.sem)).eval ext).val τ *
      ((pairTree (.leaf unit) ((R :: C).map DTensor.sem) ((V :: X).map DTensor.sem)).eval ext).val τ) =
      fun τ => applied ext (Q :: B) (P :: Y) u a l τ * applied ext (R :: C) (V :: X) s b m τ := by
      funext τ; rw [z3, w3]
    have htn : t.Nodup := (List.nodup_append.1 (List.nodup_append.1 hf).2.1).1
    refine (congrArg (fun F => sumOver ext _ F σ) e).trans (sumOver_perm ext ?_ (z1.nodup.filter _) _ σ)
    rw [List.perm_ext_iff_of_nodup (z1.nodup.filter _) htn]
    intro k
    have w2' := w2 k
    simp only [List.map_cons] at w2'
    simp only [List.mem_filter, decide_eq_true_eq, z2, w2', and_self]
  · rw [hflat]
    intro U hU
    have : U ∈ interleave4 (P :: Y) (Q :: B) (R :: C) (V :: X) := hU
    rcases interleave4_mem this with h | h | h | h
    · exact hy.ok U h
    · exact hB.ok U h
    · exact hC.ok U h
    · exact hx.ok U h
  · rw [hflat, hmap]; exact hsz'
  · rw [hflat, hmap, List.eq_nil_iff_forall_not_mem]
    intro k hk
    exact hfi k ((hlay.1 k).1 hk)

end Verif.MPS
